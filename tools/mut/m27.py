muts={}
def m(i,F,d,e,c,*ed): muts[i]=dict(d=d,e=e,c=c,edits=[('Model/'+F+'.lean',a,b) for a,b in ed])
F='HeartBeat'
m('z01',F,'State.beat','the heart beat does not wake the service','C122_awake',("    woken := if s.registered then some s.now else s.woken }","    woken := s.woken }"))
m('z02',F,'State.beat','the delay is not set again','C122_spaced',("    deadline := s.now + interval\n    registered := false","    registered := false"))
m('z03',F,'State.poll','the service registers its waker only when the heart beat had not woken it','C122_awake: every poll registers',("{ s with registered := true, woken := none }","{ s with registered := s.registered || s.woken.isNone, woken := none }"))
m('z04',F,'start','the heart beat is created without an interval','C122_spaced/awake: first interval',("  deadline := created + interval\n","  deadline := created + 2 * interval\n"),("if created + interval ≤ now","if created + 2 * interval ≤ now"))
m('z05',F,'start','the first poll does not register','C122_awake',("  registered := true\n  woken := none","  registered := false\n  woken := none"))
m('z06',F,'State.beat','the delay is set to twice the interval','C122_awake',("    deadline := s.now + interval","    deadline := s.now + 2 * interval"))
m('z07',F,'State.beat','the waker is not taken','C122 (equivalent: an additional wake)',("    registered := false\n","    registered := s.registered\n"))
m('z08',F,'State.beat','the delay is set again from the old deadline','C122_spaced',("    deadline := s.now + interval","    deadline := s.deadline + interval"))
