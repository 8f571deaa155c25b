muts={}
def m(i,F,d,e,c,*ed): muts[i]=dict(d=d,e=e,c=c,edits=[('Model/'+F+'.lean',a,b) for a,b in ed])
F='CoreProtocol'
m('y01',F,'target','dials do not open the transmitter','C121_opened, C121_messages',("def target : List Nat := [pingId, identifyId, discoveryId, transmitterId]","def target : List Nat := [pingId, identifyId, discoveryId]"))
m('y02',F,'messageId','messages go on the discovery protocol','C121_messages',("def messageId : Nat := transmitterId","def messageId : Nat := discoveryId"))
m('y03',F,'discoveryId','discovery and transmitter have one number','C121_opened',("def discoveryId : Nat := 3","def discoveryId : Nat := 4"))
m('y04',F,'Builder.build','a missing discovery is no error','C121_set_up: all four are needed',("      match b.discovery with\n      | none => .error .discovery","      match b.discovery.orElse (fun _ => b.ping) with\n      | none => .error .discovery"))
m('y05',F,'Builder.give','what was given first stays','C121: what was given last',("  | (.transmitter, h) => { b with transmitter := some h }","  | (.transmitter, h) => { b with transmitter := b.transmitter.orElse fun _ => some h }"))
m('y06',F,'Builder.build','the handler of ping is used for identify','C121_opened: each with what was given for it',("identifyVersions, .identify, i⟩","identifyVersions, .identify, p⟩"))
m('y07',F,'pingName','ping and identify have one name and the names carry no number','C121_opened',('def pingName : Str := "chain_ping".toList','def pingName : Str := "chain_identify".toList'),("n ++ '/' :: shw id","n"))
m('y08',F,'discoveryVersions','no version of discovery','C121_opened',('def discoveryVersions : List Str := ["0.1".toList]','def discoveryVersions : List Str := []'))
m('y09',F,'nodeCalls','the node does not set up identify','C121_node',("(.ping, ping), (.identify, ident),","(.ping, ping), (.ping, ident),"))
m('y10',F,'Builder.build','the transmitter is set up under the number of ping','C121_messages',("⟨transmitterId, nameOf shw transmitterName transmitterId","⟨pingId, nameOf shw transmitterName transmitterId"))
m('y11',F,'Builder.build','the wrong name in the panic','C121_missing',("        | none => .error .transmitter","        | none => .error .discovery"))
