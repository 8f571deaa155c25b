def m(i,d,e,c,*edits): 
    assert i not in muts; muts[i]=dict(d=d,e=e,c=c,edits=list(edits))
MP='Model/Mpt.lean'
m('mt01','nibblesOf','low half of a byte first in the path only for reads of the second nibble (halves equal)','C96: different keys are different paths',(MP,"Fin.ofNat 16 (b.toNat / 16) :: Fin.ofNat 16 (b.toNat % 16) :: nibblesOf bs","Fin.ofNat 16 (b.toNat % 16) :: Fin.ofNat 16 (b.toNat % 16) :: nibblesOf bs"))
m('mt02','Mpt.insert','a leaf whose path is a proper start of the key is overwritten','C96: every read is answered with the last write under that key',(MP,"    | (c, [], x :: r) => join c (seat (fun _ => empty) (some w) (x :: r) v)","    | (c, [], x :: r) => join c (seat (fun _ => empty) none (x :: r) v)"))
m('mt03','Mpt.insert','splitting an extension loses the rest of its path','C96',(MP,"setKid (fun _ => empty) y (join s c)) none r v)","setKid (fun _ => empty) y c) none r v)"))
m('mt04','Mpt.insert','an extension that is followed keeps its old child','C96',(MP,"    | (_, [], r) => ext p (insert c r v)","    | (_, [], _) => ext p c"))
m('mt05','Mpt.seat','value put in a branch at the end of a path is dropped','C96',(MP,"  | [] => branch kids (some v)\n  | x :: r => branch (setKid","  | [] => branch kids none\n  | x :: r => branch (setKid"))
m('mt06','Mpt.shrink','a branch left with a single child is not collapsed','C96: the root depends on the contents only',(MP,"  | [i], none => join [i] (kids i)\n","  | [_], none => branch kids v\n"))
m('mt07','Mpt.shrink','a branch left with a value only is not collapsed','C96: the root depends on the contents only',(MP,"  | [], some w => leaf [] w\n","  | [], some _ => branch kids v\n"))
m('mt08','Mpt.shrink','the nibble of the collapsed child is lost','C96',(MP,"  | [i], none => join [i] (kids i)\n","  | [i], none => join [] (kids i)\n"))
m('mt09','Mpt.remove','a removal below an extension leaves two extensions in a row','C96: canonical form',(MP,"    | some r => join p (remove c r)","    | some r => ext p (remove c r)"))
m('mt10','Mpt.remove','removing a branch value removes the branch','C96',(MP,"  | branch kids _, [] => shrink kids none","  | branch _ _, [] => empty"))
m('mt11','Mpt.write','the empty value is stored','C96: the empty value removes',(MP,"if v = [] then t.remove (nibblesOf k) else t.insert (nibblesOf k) v","t.insert (nibblesOf k) v"))
m('mt12','Mpt.compact','leaves are not marked','C96: roots commit to contents',(MP,"  let flag := if leaf then 2 else 0","  let flag := if leaf then 0 else 0"))
m('mt13','Mpt.compact','first nibble of an odd path dropped','C96',(MP,"UInt8.ofNat ((flag + 1) * 16 + x.val) :: pack r","UInt8.ofNat ((flag + 1) * 16) :: pack r"))
m('mt14','Mpt.ref','nodes of 32 bytes embedded','C97: what was committed can be opened (stored nodes and embedded nodes must agree)',(MP,"if x.enc.length < 32 then x else","if x.enc.length ≤ 32 then x else"))
m('mt15','Mpt.item','branch value left out of the coding','C96: roots commit to contents',(MP,"++ [.data (v.getD [])])","++ [.data []])"))
m('mt16','Mpt.item','leaf value left out of the coding','C96: roots commit to contents',(MP,"  | leaf p v => .list [.data (compact true p), .data v]\n","  | leaf p _ => .list [.data (compact true p), .data []]\n"))
m('mt17','Mpt.stored','only nodes longer than 33 bytes are written','C97: committed roots can be opened',(MP,"filter (fun b => 32 ≤ b.length)","filter (fun b => 33 ≤ b.length)"))
m('mt18','Mpt.stored','a short root is not written','C97: committed roots can be opened',(MP,"  t.coding digest :: (t.codings digest).filter","  (t.codings digest).filter"))
m('mt19','TrieDb.removeBatch','nodes removed in full mode','C97: full databases keep everything',(MP,"  if db.light then ks.foldl","  if !db.light then ks.foldl"))
m('mt20','TrieDb.insertBatch','values stored under the wrong keys','C97',(MP,"(ks.zip vs).foldl (fun db x => db.insert x.1 x.2) db","(ks.zip vs.reverse).foldl (fun db x => db.insert x.1 x.2) db"))
m('mt21','TrieDb.insert','an existing node is not overwritten... and others are cleared','C97',(MP,"fun i => if i = k then some v else db.data i }","fun i => if i = k then some v else none }"))
m('mt22','Mpt.commit','the root returned is the hash of the root again','C97: the root given out can be opened',(MP,"    (fun db => (t.root digest, db.removeBatch stale))","    (fun db => (digest (t.root digest).bytes, db.removeBatch stale))"))
m('mt23','TrieDb.load','branch value read as absent','C97: contents as committed',(MP,"(if v = [] then none else some v))\n      | _ => none","none)\n      | _ => none"))
m('mt24','TrieDb.load','children of a branch read one off','C97',(MP,"ks.getD i.val .empty","ks.getD (i.val + 1) .empty"))
m('mt25','Mpt.uncompact','leaf and extension marks confused','C97',(MP,"    else if flag = 2 then some (true, nibblesOf r)","    else if flag = 2 then some (false, nibblesOf r)"))
m('mt26','Mpt.commit','stale nodes removed before the batch','(equivalent for full databases; C97_light_refuted is about light ones)',(MP,"  (db.insertBatch ((t.stored digest).map (fun b => (digest b).bytes)) (t.stored digest)).map\n    (fun db => (t.root digest, db.removeBatch stale))","  ((db.removeBatch stale).insertBatch ((t.stored digest).map (fun b => (digest b).bytes)) (t.stored digest)).map\n    (fun db => (t.root digest, db))"))
m('mt27','Mpt.has','contains answers for the empty key','C96_map',(MP,"(t.read k).isSome","(t.read []).isSome"))
m('mt28','TrieDb.remove','a single removal in full mode','(the trie does not call it)',(MP,"  if db.light then { db with data := fun i => if i = k then none else db.data i } else db\n","  { db with data := fun i => if i = k then none else db.data i }\n"))
PM='Model/PeerManager.lean'; ML='Model/Merkle.lean'
