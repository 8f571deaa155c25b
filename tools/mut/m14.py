A='Model/Adapter.lean'; I='Model/FirstStart.lean'
def m(i,F,d,e,c,*ed): muts[i]=dict(d=d,e=e,c=c,edits=[(F,a,b) for a,b in ed])
m('ad01',A,'Db.del','deletes the key in every column','C106: one map per schema',("def Db.del (db : Db) (col : Nat) (key : Bytes) : Db :=\n  fun c k => if c = col ∧ k = key","def Db.del (db : Db) (col : Nat) (key : Bytes) : Db :=\n  fun c k => if k = key"))
m('ad02',A,'Db.call','a batch of unequal lengths is cut to the shorter list','C106: a call with unequal numbers of keys and values changes nothing',("    if ks.length ≠ ms.length then (.error .mismatch, db) else\n",""))
m('ad03',A,'Db.call','entries of a batch are applied last first','C106: a batch is its entries in order',("ps.foldl (fun d p => d.modify (be (S i).category) p) db)\n\n/-- Calls","ps.reverse.foldl (fun d p => d.modify (be (S i).category) p) db)\n\n/-- Calls"))
m('ad04',A,'StoreSchema.pairs','a key that cannot be encoded is skipped','C106: a call that a codec refuses changes nothing',("    let kb ← s.encodeKey k\n    let vb ← s.encodeMod m\n    let rest ← s.pairs ks ms\n    pure ((kb, vb) :: rest)","    let rest ← s.pairs ks ms\n    match s.encodeKey k, s.encodeMod m with\n    | some kb, some vb => pure ((kb, vb) :: rest)\n    | _, _ => pure rest"))
m('ad05',A,'Db.call','contains is true of removed keys (a tombstone counts)','C106: contains tells whether get gives anything',(".ok (.bool (db (be (S i).category) kb).isSome), db)",".ok (.bool true), db)"))
m('ad06',A,'Db.call','an insert that RocksDB refuses is reported as done','C106: a failed call is reported',("if io = false then (.error .db, db) else (.ok .unit, db.put (be (S i).category) kb vb)","if io = false then (.ok .unit, db) else (.ok .unit, db.put (be (S i).category) kb vb)"))
m('ad07',A,'Db.call','insert keeps an old value','C106: get gives what was last put',("(.ok .unit, db.put (be (S i).category) kb vb)","(.ok .unit, if (db (be (S i).category) kb).isSome then db else db.put (be (S i).category) kb vb)"))
m('ad08',A,'StoreSchema.read','a value that does not decode is read as absent','C106/C31: (needs codecs that do not keep values)',("      | none => .error .codec\n      | some v => .ok (some v)","      | none => .ok none\n      | some v => .ok (some v)"))
m('ad09',A,'StoreSchema.encodeMod','a removal writes an empty value','C106: removed keys are absent',("  | .remove => some none","  | .remove => some (some [])"))
m('ad10',A,'Db.call','get_batch drops absent values','C106: get_batch gives one answer per key',("(ks.mapM ((S i).read be io db) |>.map (.values i), db)","(ks.mapM ((S i).read be io db) |>.map (fun l => .values i (l.filter Option.isSome)), db)"))
m('ad11',A,'Db.call','remove does nothing','C106: removed keys are absent',("(.ok .unit, db.del (be (S i).category) kb)","(.ok .unit, db)"))
m('ad12',A,'Db.call','get_batch reads the last key first','C106: get_batch answers in order',("(ks.mapM ((S i).read be io db) |>","(ks.reverse.mapM ((S i).read be io db) |>"))
m('ad13',A,'Db.seen','a batch of RocksAdapter is written entry by entry','C106: nobody sees a part of a batch',("  if atomic then [db, ps.foldl (fun d p => d.modify col p) db]\n  else ","  "))
m('fs01',I,'initCut','the writes come before the state is committed','C103: an interrupted first start does no harm',("(store.writes ((initWrites cfg g root).take k), tries')","(store.writes ((initWrites cfg g root).take k), tries)"))
m('fs02',I,'initWrites','the proof is not written','C103',(" ++\n    StoreOp.writes cfg.digest (.updateLatestProof (cfg.genesisEpoch g.timestamp root).header.proof)",""))
m('fs03',I,'initWrites','the proof is written first','C103',("  StoreOp.writes cfg.digest (.insertEpoch (cfg.genesisEpoch g.timestamp root)) ++\n    StoreOp.writes cfg.digest (.updateLatestProof (cfg.genesisEpoch g.timestamp root).header.proof)","  StoreOp.writes cfg.digest (.updateLatestProof (cfg.genesisEpoch g.timestamp root).header.proof) ++\n    StoreOp.writes cfg.digest (.insertEpoch (cfg.genesisEpoch g.timestamp root))"))
m('fs04',I,'initCut','an existing chain is initialised again','C103/C13',("  | some _, _ => (store, tries)\n",""),("  | none, none => (store, tries)","  | _, none => (store, tries)"),("  | none, some k =>","  | _, some k =>"))
m('fs05','Model/Storage.lean','StoreOp.writes','insert_epoch makes the epoch the latest one first','C103/C32: a crash leaves a latest epoch that can be read',("    [.epoch ⟨e.header.epochId⟩ e, .hashEpoch (digest (pbEncode e.header)) ⟨e.header.epochId⟩, .latestEpoch e]","    [.latestEpoch e, .epoch ⟨e.header.epochId⟩ e, .hashEpoch (digest (pbEncode e.header)) ⟨e.header.epochId⟩]"))
m('to01','Model/TxCache.lean','Wrapper.isTimeout','a transaction at its time-out is packaged','C104: not executed after (C20: never packaged at) its time-out',("w.tx.raw.timeout ≤ current ||","w.tx.raw.timeout < current ||"))
m('to02','Model/TxCache.lean','Wrapper.isTimeout','expired transactions are packaged','C104: not executed after its time-out',("  w.tx.raw.timeout ≤ current || timeout < w.tx.raw.timeout","  decide (timeout < w.tx.raw.timeout)"))
m('to03','Model/TxCache.lean','packageLoop','expired transactions are taken, not only recorded as expired','C104/C20',("packageLoop heap cap limit current timeout (pk.expire w) inc cand","packageLoop heap cap limit current timeout ((pk.expire w).take limit w) inc cand"))
