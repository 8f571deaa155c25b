N='Model/NetService.lean'
def m(i,F,d,e,c,*ed): muts[i]=dict(d=d,e=e,c=c,edits=[(F,a,b) for a,b in ed])
m('ns01',N,'NetService.addReactor','the scheme of the url is not checked','C114: a registration succeeds exactly if its scheme is that of its kind',("    if (e.scheme = some .rpcResp) = (resp = true) then\n","    if True then\n"))
m('ns02',N,'NetService.addReactor','the check of the scheme is inverted','C114: a registration succeeds exactly if its scheme is that of its kind',("(e.scheme = some .rpcResp) = (resp = true)","(e.scheme = some .rpcResp) = (resp = false)"))
m('ns03',N,'NetService.addReactor','the router forgets the reactors registered before','C114: a message goes to the handler registered for its endpoint',("some (m.register e r)","some (Reactors.register [] e r)"))
m('ns04',N,'NetService.addReactor','the reactor is not put into the router','C114: a message goes to the handler registered for its endpoint',("(true, { s with router := some (m.register e r) })","(true, { s with router := some m })"))
m('ns05',N,'NetService.startRouter','the router is cloned, not taken, so every poll spawns it again','C114: each part runs once',("{ s with router := none, table := m,","{ s with router := some m, table := m,"))
m('ns06',N,'NetService.startMgr','the peer manager is not taken: every poll spawns it again','C114: each part runs once',("mgr := false, running","mgr := true, running"))
m('ns07',N,'NetService.startBeat','the heart beat is never started','C114: each part runs once',("if s.beat then { s with beat := false, running := s.running ++ [.heartBeat] } else s","s"))
m('ns08',N,'NetService.startConn','the service listens at the default address also if it was told another','C114: it listens where it was told',("    | some _ => some { s with conn := false,","    | some _ => some { s with net := { s.net with bound := w.bind defaultListen }, conn := false,"))
m('ns09',N,'NetService.startMgr','the default address is announced in every case','C114: it announces the address where it listens',("some (s.net.announced.getD defaultListen)","some defaultListen"))
m('ns10',N,'NetService.startConn','without an address the service starts without listening','C114: it listens where it was told, or at the default address',("some { s with net := { s.net with bound := some real }, conn","some { s with conn"))
m('ns11',N,'NetService.listen','listen moves a service that already runs','C114: nothing after the start has an effect (the address is that told before)',("if s.conn then ((s.net.listen w a).1, { s with net := (s.net.listen w a).2 }) else (true, s)","if s.conn then ((s.net.listen w a).1, { s with net := (s.net.listen w a).2 }) else (true, { s with net := { s.net with bound := w.bind (socketToMulti a) } })"))
m('ns12','Model/Startup.lean','NetStart.listen','a second call to listen replaces the first','C114: it listens at the address told first',)
del muts['ns12']
