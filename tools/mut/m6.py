def m(i,d,e,c,*edits): 
    assert i not in muts; muts[i]=dict(d=d,e=e,c=c,edits=list(edits))
_old=muts; 
_all={}
exec(open('/tmp/mut/m4.py').read().replace("muts[i]=","_all[i]=").replace("assert i not in muts;",""))
def m(i,d,e,c,*edits): 
    assert i not in muts; muts[i]=dict(d=d,e=e,c=c,edits=list(edits))
for k in ['ke04','ke05','ke06','ke09','ke10','ke11','ke12','ke13','au03','pm08','pm10','as08','as09']:
    x=_all[k]; muts[k+'r']=x
BE='Model/ByteExecutor.lean'; PS='Model/Persist.lean'
m('be01','Adapter.commitTrie','stashed changes are not written to the trie','C85: the state on disk is the state computed with',(BE,"      | some v => if v = [] then none else some v\n","      | some _ => l.trie k\n"))
m('be02','Adapter.commitTrie','the stash is not cleared','C85',(BE,"    stash := PMap.empty }","    stash := l.stash }"))
m('be03','BSt.commit','roots of the two contracts swapped in the top trie','C85: a root reopened shows its state',(BE,"PMap.set (PMap.set s.top accountContract.toBytes accRoot.bytes) bankContract.toBytes bankRoot.bytes","PMap.set (PMap.set s.top accountContract.toBytes bankRoot.bytes) bankContract.toBytes accRoot.bytes"))
m('be04','bFromRoot','the bank is opened at the account contract','C85',(BE,"openContract T db top accountContract, openContract T db top bankContract","openContract T db top accountContract, openContract T db top accountContract"))
m('be05','BSt.commit','the bank trie is not committed','C85',(BE,"if accFirst then bank.trie :: acc.trie :: db else","if accFirst then acc.trie :: db else"))
m('be06','accountSchema','key of an account without its type byte','C85: user and contract accounts are kept apart',(BE,"⟨fun a => a.item.enc, fun x => x.item.enc, Account.dec⟩","⟨fun a => (Item.str (a.toBytes.drop 1)).enc, fun x => x.item.enc, Account.dec⟩"))
m('be07','bankContract','bank and account contract share an address','C85',(BE,".contract ⟨.native, List.replicate 19 0 ++ [2], by simp⟩",".contract ⟨.native, 0xC0 :: List.replicate 18 0 ++ [1], by simp⟩"))
m('be08','Adapter.write','one byte too large values are silently dropped','C85: nothing is lost',(BE,"then .ok (l.insertCache (S.encKey k) (S.encVal v)) else .error .memory","then .ok (if (S.encVal v).length < 1000 then l.insertCache (S.encKey k) (S.encVal v) else l) else .error .memory"))
m('be09','BSt.revert','revert forgets the bank','C85/C03',(BE,"acc := s.acc.revertCache, bank := s.bank.revertCache","acc := s.acc.revertCache"))
m('be10','BSt.stash','stash forgets the bank','C85',(BE,"acc := s.acc.stashCache, bank := s.bank.stashCache","acc := s.acc.stashCache"))
m('be11','bFindOrCreate','a contract account is created as a user account','C85',(BE,"    | .contract _ => .ok (.contract ⟨0, [], env.emptyHash⟩)","    | .contract _ => .ok (.user ⟨0, []⟩)"))
m('be12','bExec','the coinbase reward is stashed before the commit','C85: same answers as the typed executor',(BE,"let (root, _, db') := s2.commit T accFirst db\n      (.ok { receipts","let (root, _, db') := s2.stash.commit T accFirst db\n      (.ok { receipts"))
m('be13','bCreateGenesis','genesis not stashed before the commit','C85/C13',(BE,"s2.stash.commit T accFirst db","s2.commit T accFirst db"))
m('be14','openContract','an unreadable root is taken for an empty contract','C85',(BE,"    | some root => (db.open T root).map Layers.ofTrie","    | some root => some (((db.open T root).map Layers.ofTrie).getD (Layers.ofTrie PMap.empty))"))
m('be15','Adapter.read','a decoding error reads as absent','C85',(BE,"    | .error e => .error (.codec e)\n\n/-- `contains","    | .error _ => .ok none\n\n/-- `contains"))
m('be16','bHandleTransfer','the balance after is read before the transfer','C85/C02',(BE,"        match bGetBalance carrying.assetId caller s1 with","        match bGetBalance carrying.assetId caller s with"))
m('be17','TrieStore.open','the database keeps only the latest three tries','C85: every root returned can be reopened later',(BE,"  db.find? (fun m => T.root m = root)","  (db.take 3).find? (fun m => T.root m = root)"))
m('ps01','FilePeer.enc','addresses not saved','C86: known again with all addresses',(PS,"encIp p.ip ++ (encAddrs c p.addrs ++","encIp p.ip ++ (encAddrs c [] ++"))
m('ps02','PM.boot','an error while loading is ignored and the part read used','C87',(PS,"(readPeers c n bs).map (·.1)","some ((readPeers c n bs).elim [] (·.1))"))
m('ps03','readPeers','reads as many as are there','C87: a torn file is not used',(PS,"    | none => none\n    | some (p, bs) => (readPeers c n bs)","    | none => some ([], bs)\n    | some (p, bs) => (readPeers c n bs)"))
m('ps04','encIp','v6 written with the variant of v4','C86',(PS,"| some (.v6 b) => 1 :: (u32LE 1 ++ b.1)","| some (.v6 b) => 1 :: (u32LE 0 ++ b.1)"))
m('ps05','FilePeer.enc','connect and disconnect time exchanged','C86',(PS,"(u64LE p.connectAt ++ (u64LE p.disconnectAt ++ u64LE p.alive))","(u64LE p.disconnectAt ++ (u64LE p.connectAt ++ u64LE p.alive))"))
m('ps06','PM.boot','peers loaded without their addresses','C86',(PS,"| some l => l.map (fun f => (f.key, f.addrs))","| some l => l.map (fun f => (f.key, []))"))
m('ps07','PM.dropFile','nothing written on shutdown','C86',(PS,"if persistence then some (peerFile c l) else file","file"))
m('ps08','PM.insertPeers','a loaded peer keeps waiting','C86: can be dialled at once',('Model/PeerManager.lean',"| none => some (cfg.newPeer key addrs now)) } rest","| none => some { cfg.newPeer key addrs now with nextRetry := now.tick + 5 }) } rest"))
m('ps09','PM.insertPeers','addresses of loaded peers dropped','C86',('Model/PeerManager.lean',"| none => some (cfg.newPeer key addrs now)) } rest","| none => some (cfg.newPeer key [] now)) } rest"))
