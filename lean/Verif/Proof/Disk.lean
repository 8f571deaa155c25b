import Verif.Model.Disk
import Verif.Props.Storage
import Verif.Props.ByteExecutor
/-
The node on bytes follows the node on tables: step by step.
-/
namespace Huobi

/-- Every stored record comes back from its coding. -/
structure Storable (s : Store) : Prop where
  txs : ∀ h t, s.txs h = some t → Preserved t
  receipts : ∀ h t, s.receipts h = some t → Preserved t
  epochs : ∀ h t, s.epochs h = some t → Preserved t
  latest : ∀ t, s.latest = some t → Preserved t
  proof : ∀ t, s.proof = some t → Preserved t

/-- Every record of a write comes back from its coding. -/
def Write.Good : Write → Prop
  | .txs l => ∀ t ∈ l, Preserved t
  | .receipts l => ∀ t ∈ l, Preserved t
  | .epoch _ e => Preserved e
  | .hashEpoch _ _ => True
  | .latestEpoch e => Preserved e
  | .latestProof p => Preserved p

theorem Storable.empty : Storable Store.empty := ⟨nofun, nofun, nofun, nofun, nofun⟩

theorem insertAll_some {K V : Type} [DecidableEq K] {key : V → K} {l : List V} {m : K → Option V} {k : K} {v : V}
    (h : insertAll key l m k = some v) : v ∈ l ∨ m k = some v := by
  unfold insertAll at h
  cases e : l.reverse.find? (fun v => key v = k) with
  | none => rw [e] at h; exact .inr h
  | some w => rw [e] at h; cases h; exact .inl (List.mem_reverse.1 (List.mem_of_find?_eq_some e))

theorem Storable.write {s : Store} (h : Storable s) (w : Write) (hw : w.Good) : Storable (s.write w) := by
  cases w with
  | txs l => exact ⟨fun k t e => (insertAll_some e).elim (hw t) (h.txs k t), h.receipts, h.epochs, h.latest, h.proof⟩
  | receipts l => exact ⟨h.txs, fun k t e => (insertAll_some e).elim (hw t) (h.receipts k t), h.epochs, h.latest, h.proof⟩
  | epoch id e =>
    refine ⟨h.txs, h.receipts, fun k t e => ?_, h.latest, h.proof⟩
    simp only [Store.write] at e
    split at e
    · cases e; exact hw
    · exact h.epochs k t e
  | hashEpoch x id => exact ⟨h.txs, h.receipts, h.epochs, h.latest, h.proof⟩
  | latestEpoch e => exact ⟨h.txs, h.receipts, h.epochs, fun t e => by cases e; exact hw, h.proof⟩
  | latestProof p => exact ⟨h.txs, h.receipts, h.epochs, h.latest, fun t e => by cases e; exact hw⟩

/-- The two nodes hold the same. -/
structure DSim (cfg : NodeCfg) (L : DiskLib) (n : Node) (d : DNode) : Prop where
  rocks : Refines cfg.keys d.rocks n.store
  good : Storable n.store
  tries : Mirrors L.trie n.tries d.tries
  pool : d.pool = n.pool
  status : d.status = n.status
  exempt : d.exempt = n.exempt

/-- A recorded epoch has the digest of a reserved name. -/
def Reserved (cfg : NodeCfg) (s : Store) : Prop := s.byHash cfg.keys.epoch ≠ none ∨ s.byHash cfg.keys.proof ≠ none

/-- Either databases are spoiled by a clash of hashes. -/
def Bad (cfg : NodeCfg) (L : DiskLib) (s : Store) (t : TrieStore) : Prop := Reserved cfg s ∨ Collides L.trie t

/-- The answer in terms of the node on bytes. -/
def liftC {α : Type} : Except CErr α → Except DiskErr α
  | .ok a => .ok a
  | .error e => .error (.node e)

/-- What two calls lead to. -/
def Out (cfg : NodeCfg) (L : DiskLib) {α : Type} (r : Except CErr α × Node) (r' : Except DiskErr α × DNode) : Prop :=
  Bad cfg L r.2.store r'.2.tries ∨ r'.1 = .error .memory ∨ r.1 = .error .openRoot ∨ (r'.1 = liftC r.1 ∧ DSim cfg L r.2 r'.2)

/-- Epochs stay findable by hash. -/
def Grows (n n' : Node) : Prop := ∀ h, n.store.byHash h ≠ none → n'.store.byHash h ≠ none

/-- What calls of executors make of a state database. -/
inductive TrieSteps (L : DiskLib) (t : TrieStore) : TrieStore → Prop
  | refl : TrieSteps L t t
  | call {t'} (c : ExecCall) : TrieSteps L t t' → TrieSteps L t (byteCall L.trie L.showCodec t' c).2

theorem TrieSteps.trans {L : DiskLib} {a b c : TrieStore} (h : TrieSteps L a b) (h' : TrieSteps L b c) : TrieSteps L a c := by
  induction h' with
  | refl => exact h
  | call x _ ih => exact .call x ih

theorem TrieSteps.mem {L : DiskLib} {a b : TrieStore} (h : TrieSteps L a b) : ∀ m ∈ a, m ∈ b := by
  induction h with
  | refl => exact fun _ h => h
  | call x _ ih => exact fun m hm => byteCall_grows _ _ _ x m (ih m hm)

/-- Only executors change the state database. -/
def DGrows (L : DiskLib) (d d' : DNode) : Prop := TrieSteps L d.tries d'.tries

theorem Grows.refl (n : Node) : Grows n n := fun _ h => h
theorem Grows.trans {a b c : Node} (h : Grows a b) (h' : Grows b c) : Grows a c := fun k e => h' k (h k e)
theorem DGrows.refl {L : DiskLib} (n : DNode) : DGrows L n n := TrieSteps.refl
theorem DGrows.trans {L : DiskLib} {a b c : DNode} (h : DGrows L a b) (h' : DGrows L b c) : DGrows L a c := TrieSteps.trans h h'

theorem Bad.mono {cfg : NodeCfg} {L : DiskLib} {n n' : Node} {d d' : DNode} (h : Bad cfg L n.store d.tries) (g : Grows n n')
    (g' : DGrows L d d') : Bad cfg L n'.store d'.tries :=
  h.elim (fun h => .inl (h.elim (fun h => .inl (g _ h)) (fun h => .inr (g _ h)))) (fun h => .inr (h.mono g'.mem))

/-- One call after the other. -/
theorem Out.bind {cfg : NodeCfg} {L : DiskLib} {α β : Type} {r : Except CErr α × Node} {r' : Except DiskErr α × DNode}
    (h : Out cfg L r r') {k : α → Node → Except CErr β × Node} {k' : α → DNode → Except DiskErr β × DNode}
    (hk : ∀ a n d, r = (.ok a, n) → r' = (.ok a, d) → DSim cfg L n d → Out cfg L (k a n) (k' a d)) (hg : ∀ a n, Grows n (k a n).2) (hg' : ∀ a d, DGrows L d (k' a d).2) :
    Out cfg L (match (generalizing := false) r with | (.error e, n) => (.error e, n) | (.ok a, n) => k a n)
      (match (generalizing := false) r' with | (.error e, d) => (.error e, d) | (.ok a, d) => k' a d) := by
  obtain ⟨q, n⟩ := r
  obtain ⟨q', d⟩ := r'
  have grow : Bad cfg L n.store d.tries → Bad cfg L
      (match (q, n) with | (.error e, n) => ((.error e, n) : Except CErr β × Node) | (.ok a, n) => k a n).2.store
      (match (q', d) with | (.error e, d) => ((.error e, d) : Except DiskErr β × DNode) | (.ok a, d) => k' a d).2.tries := by
    intro hb
    refine hb.mono (n' := (match (q, n) with | (.error e, n) => ((.error e, n) : Except CErr β × Node) | (.ok a, n) => k a n).2)
      (d' := (match (q', d) with | (.error e, d) => ((.error e, d) : Except DiskErr β × DNode) | (.ok a, d) => k' a d).2) ?_ ?_
    · cases q with
      | error e => exact .refl _
      | ok a => exact hg a n
    · cases q' with
      | error e => exact .refl _
      | ok a => exact hg' a d
  rcases h with h | h | h | ⟨h, hs⟩
  · exact .inl (grow h)
  · cases h; exact .inr (.inl rfl)
  · cases h; exact .inr (.inr (.inl rfl))
  · simp only at h hs
    subst h
    cases q with
    | error e => exact .inr (.inr (.inr ⟨rfl, hs⟩))
    | ok a => exact hk a n d rfl rfl hs

theorem Grows.bind {α β : Type} {n0 : Node} {r : Except CErr α × Node} (h : Grows n0 r.2) {k : α → Node → Except CErr β × Node}
    (hg : ∀ a n, Grows n (k a n).2) : Grows n0 (match (generalizing := false) r with | (.error e, n) => ((.error e, n) : Except CErr β × Node) | (.ok a, n) => k a n).2 := by
  obtain ⟨q, n⟩ := r
  cases q with
  | error e => exact h
  | ok a => exact h.trans (hg a n)

theorem DGrows.bind {L : DiskLib} {α β : Type} {n0 : DNode} {r : Except DiskErr α × DNode} (h : DGrows L n0 r.2) {k : α → DNode → Except DiskErr β × DNode}
    (hg : ∀ a n, DGrows L n (k a n).2) : DGrows L n0 (match (generalizing := false) r with | (.error e, n) => ((.error e, n) : Except DiskErr β × DNode) | (.ok a, n) => k a n).2 := by
  obtain ⟨q, n⟩ := r
  cases q with
  | error e => exact h
  | ok a => exact h.trans (hg a n)

/-- The same when nothing is returned in between. -/
theorem Out.bindU {cfg : NodeCfg} {L : DiskLib} {β : Type} {r : Except CErr Unit × Node} {r' : Except DiskErr Unit × DNode}
    (h : Out cfg L r r') {k : Node → Except CErr β × Node} {k' : DNode → Except DiskErr β × DNode}
    (hk : ∀ n d, DSim cfg L n d → Out cfg L (k n) (k' d)) (hg : ∀ n, Grows n (k n).2) (hg' : ∀ d, DGrows L d (k' d).2) :
    Out cfg L (match (generalizing := false) r with | (.error e, n) => (.error e, n) | (.ok (), n) => k n)
      (match (generalizing := false) r' with | (.error e, d) => (.error e, d) | (.ok (), d) => k' d) := by
  obtain ⟨q, n⟩ := r
  obtain ⟨q', d⟩ := r'
  have := Out.bind h (k := fun _ => k) (k' := fun _ => k') (fun _ n d _ _ => hk n d) (fun _ => hg) (fun _ => hg')
  cases q <;> cases q' <;> exact this

/-- The same when the first call of the node on tables is known. -/
theorem Out.thenU {cfg : NodeCfg} {L : DiskLib} {β : Type} {n : Node} {r' : Except DiskErr Unit × DNode}
    (h : Out cfg L ((.ok () : Except CErr Unit), n) r') {x : Except CErr β × Node} {k' : DNode → Except DiskErr β × DNode}
    (hk : ∀ d, DSim cfg L n d → Out cfg L x (k' d)) (hg : Grows n x.2) (hg' : ∀ d, DGrows L d (k' d).2) :
    Out cfg L x (match (generalizing := false) r' with | (.error e, d) => (.error e, d) | (.ok (), d) => k' d) := by
  obtain ⟨q', d⟩ := r'
  rcases h with h | h | h | ⟨h, hs⟩
  · left
    cases q' with
    | error e => exact h.mono hg (.refl _)
    | ok u => exact h.mono hg (hg' d)
  · cases h; exact .inr (.inl rfl)
  · cases h
  · cases h; exact hk d hs

theorem Grows.bindU {β : Type} {n0 : Node} {r : Except CErr Unit × Node} (h : Grows n0 r.2) {k : Node → Except CErr β × Node}
    (hg : ∀ n, Grows n (k n).2) : Grows n0 (match (generalizing := false) r with | (.error e, n) => ((.error e, n) : Except CErr β × Node) | (.ok (), n) => k n).2 := by
  obtain ⟨q, n⟩ := r
  have := Grows.bind h (k := fun _ => k) (fun _ => hg)
  cases q <;> exact this

theorem DGrows.bindU {L : DiskLib} {β : Type} {n0 : DNode} {r : Except DiskErr Unit × DNode} (h : DGrows L n0 r.2) {k : DNode → Except DiskErr β × DNode}
    (hg : ∀ n, DGrows L n (k n).2) : DGrows L n0 (match (generalizing := false) r with | (.error e, n) => ((.error e, n) : Except DiskErr β × DNode) | (.ok (), n) => k n).2 := by
  obtain ⟨q, n⟩ := r
  have := DGrows.bind h (k := fun _ => k) (fun _ => hg)
  cases q <;> exact this

/-- What follows the execution in `commit` and in the loop of the synchronisation. -/
theorem Out.cont {cfg : NodeCfg} {L : DiskLib} {α β : Type} {r : Except CErr α × Node} {r' : Except DiskErr α × DNode}
    (F : Except CErr α × Node → Except CErr β × Node) (F' : Except DiskErr α × DNode → Except DiskErr β × DNode)
    (h : Out cfg L r r') (he : ∀ e n, F (.error e, n) = (.error e, n)) (he' : ∀ e d, F' (.error e, d) = (.error e, d))
    (hk : ∀ a n d, r = (.ok a, n) → r' = (.ok a, d) → DSim cfg L n d → Out cfg L (F (.ok a, n)) (F' (.ok a, d)))
    (hg : ∀ a n, Grows n (F (.ok a, n)).2) (hg' : ∀ a d, DGrows L d (F' (.ok a, d)).2) : Out cfg L (F r) (F' r') := by
  have := Out.bind h (k := fun a n => F (.ok a, n)) (k' := fun a d => F' (.ok a, d)) hk hg hg'
  obtain ⟨q, n⟩ := r
  obtain ⟨q', d⟩ := r'
  cases q <;> cases q' <;> (try simp only [he, he']) <;> exact this

theorem Grows.cont {α β : Type} {n0 : Node} {r : Except CErr α × Node} (F : Except CErr α × Node → Except CErr β × Node) (h : Grows n0 r.2)
    (he : ∀ e n, F (.error e, n) = (.error e, n)) (hg : ∀ a n, Grows n (F (.ok a, n)).2) : Grows n0 (F r).2 := by
  obtain ⟨q, n⟩ := r
  cases q with
  | error e => rw [he]; exact h
  | ok a => exact h.trans (hg a n)

theorem DGrows.cont {L : DiskLib} {α β : Type} {n0 : DNode} {r : Except DiskErr α × DNode} (F : Except DiskErr α × DNode → Except DiskErr β × DNode) (h : DGrows L n0 r.2)
    (he : ∀ e n, F (.error e, n) = (.error e, n)) (hg : ∀ a n, DGrows L n (F (.ok a, n)).2) : DGrows L n0 (F r).2 := by
  obtain ⟨q, n⟩ := r
  cases q with
  | error e => rw [he]; exact h
  | ok a => exact h.trans (hg a n)

/-! ### Writes -/

theorem byHash_write (s : Store) (w : Write) (h : Hash) (e : s.byHash h ≠ none) : (s.write w).byHash h ≠ none := by
  cases w <;> try exact e
  simp only [Store.write]
  split
  · simp
  · exact e

theorem byHash_writes (ws : List Write) (s : Store) (h : Hash) (e : s.byHash h ≠ none) : (s.writes ws).byHash h ≠ none := by
  induction ws generalizing s with
  | nil => exact e
  | cons w ws ih => exact ih _ (byHash_write s w h e)

theorem apart_of {cfg : NodeCfg} {s : Store} {w : Write} (h : ¬ Reserved cfg (s.write w)) : w.Apart cfg.keys := by
  cases w <;> try trivial
  rename_i x id
  refine ⟨fun e => h (.inl ?_), fun e => h (.inr ?_)⟩ <;> simp [Store.write, e]

/-- The records of a write that fits are those that survive their coding, given that nothing else is wrong with them. -/
theorem good_of {lk : LatestKeys} {w : Write} (h : w.tooLong lk = false)
    (ht : ∀ l, w = .txs l → ∀ t ∈ l, t.raw.action.deploysNonAsset = false)
    (hr : ∀ l, w = .receipts l → ∀ t ∈ l, t.result.deploysNonAsset = false) : w.Good := by
  have len : ∀ p ∈ w.puts lk, p.2.2.length < 2 ^ 64 := by
    intro p hp
    unfold Write.tooLong at h
    rw [List.any_eq_false] at h
    have := h p hp
    simp only [decide_eq_true_eq] at this
    exact Nat.lt_of_not_le this
  cases w with
  | txs l => exact fun t hm => preserved_tx (ht l rfl t hm) (len _ (List.mem_map.2 ⟨t, hm, rfl⟩))
  | receipts l => exact fun t hm => preserved_receipt (hr l rfl t hm) (len _ (List.mem_map.2 ⟨t, hm, rfl⟩))
  | epoch id e => exact preserved_epoch (len _ (.head _))
  | hashEpoch x id => trivial
  | latestEpoch e => exact preserved_epoch (len _ (.head _))
  | latestProof p => exact preserved_proof (len _ (.head _))

/-- No transaction or receipt of the writes is one that its coding alters. -/
def Writable (ws : List Write) : Prop := ∀ w ∈ ws,
  (∀ l, w = .txs l → ∀ t ∈ l, t.raw.action.deploysNonAsset = false) ∧ (∀ l, w = .receipts l → ∀ t ∈ l, t.result.deploysNonAsset = false)

theorem save_refines {cfg : NodeCfg} (hk : cfg.keys.epoch ≠ cfg.keys.proof) (ws : List Write) (hw : Writable ws) {db : Db} {s : Store}
    (h : Refines cfg.keys db s) (hs : Storable s) :
    Reserved cfg (s.writes ws) ∨ (db.save cfg.keys ws).1 = false ∨
      (Refines cfg.keys (db.save cfg.keys ws).2 (s.writes ws) ∧ Storable (s.writes ws)) := by
  induction ws generalizing db s with
  | nil => exact .inr (.inr ⟨h, hs⟩)
  | cons w ws ih =>
    unfold Db.save
    by_cases hl : w.tooLong cfg.keys
    · rw [if_pos hl]; exact .inr (.inl rfl)
    rw [if_neg hl]
    by_cases hr : Reserved cfg (s.write w)
    · refine .inl ?_
      exact hr.elim (fun h => .inl (byHash_writes ws _ _ h)) (fun h => .inr (byHash_writes ws _ _ h))
    · exact ih (fun x hx => hw x (.tail _ hx)) (h.write hk w (apart_of hr))
        (hs.write w (good_of (by simpa using hl) (hw w (.head _)).1 (hw w (.head _)).2))

/-- Writing. -/
theorem save_out {cfg : NodeCfg} {L : DiskLib} (hk : cfg.keys.epoch ≠ cfg.keys.proof) (ws : List Write) (hw : Writable ws) {n : Node} {d : DNode}
    (h : DSim cfg L n d) : Out cfg L ((.ok () : Except CErr Unit), { n with store := n.store.writes ws }) (d.save cfg ws) := by
  have := save_refines hk ws hw h.rocks h.good
  unfold DNode.save
  rcases e : d.rocks.save cfg.keys ws with ⟨b, db⟩
  rw [e] at this
  simp only at this
  rcases this with h1 | h1 | ⟨h1, h2⟩
  · exact .inl (.inl h1)
  · rw [h1]; exact .inr (.inl rfl)
  · cases b with
    | false => exact .inr (.inl rfl)
    | true => exact .inr (.inr (.inr ⟨rfl, ⟨h1, h2, h.tries, h.pool, h.status, h.exempt⟩⟩))

theorem save_tries (cfg : NodeCfg) (ws : List Write) (d : DNode) : (d.save cfg ws).2.tries = d.tries := by
  unfold DNode.save
  split <;> rfl

theorem save_dgrows {L : DiskLib} (cfg : NodeCfg) (ws : List Write) (d : DNode) : DGrows L d (d.save cfg ws).2 := by
  unfold DGrows; rw [save_tries]; exact .refl

/-! ### Reads -/

theorem latest_read {cfg : NodeCfg} {db : Db} {s : Store} (h : Refines cfg.keys db s) (hs : Storable s) :
    db.getLatestEpoch .rocks cfg.keys = answer s.latest := Db.get_answer h.latest hs.latest

theorem epoch_read {cfg : NodeCfg} {db : Db} {s : Store} (h : Refines cfg.keys db s) (hs : Storable s) (i : UInt64) :
    db.getEpochById .rocks i = answer (s.epochs i) := Db.get_answer (h.epochs i) (hs.epochs i)

theorem tx_read {cfg : NodeCfg} {db : Db} {s : Store} (h : Refines cfg.keys db s) (hs : Storable s) (i : Hash) :
    db.getTransaction .rocks i = answer (s.txs i) := Db.get_answer (h.txs i) (hs.txs i)

theorem receipt_read {cfg : NodeCfg} {db : Db} {s : Store} (h : Refines cfg.keys db s) (hs : Storable s) (i : Hash) :
    db.getReceipt .rocks i = answer (s.receipts i) := Db.get_answer (h.receipts i) (hs.receipts i)

theorem txs_read {cfg : NodeCfg} {db : Db} {s : Store} (h : Refines cfg.keys db s) (hs : Storable s) (l : List Hash) :
    db.getTransactions .rocks l = .ok (l.filterMap s.txs) := by
  have : ∀ l : List Hash, l.mapM (fun h => db.get (V := SignedTx) .rocks .signedTx (pbEncode h)) = .ok (l.map s.txs) := by
    intro l
    induction l with
    | nil => rfl
    | cons x l ih => rw [List.mapM_cons, Db.get_of (h.txs x) (hs.txs x), ih]; rfl
  unfold Db.getTransactions
  rw [this]
  simp only [bind, Except.bind, pure, Except.pure, List.filterMap_map]
  rfl

theorem view_eq {cfg : NodeCfg} {L : DiskLib} {n : Node} {d : DNode} (h : DSim cfg L n d) (pull : List Hash → Option (List SignedTx)) (b : Bool) :
    d.view cfg pull b = n.view cfg pull b := by
  unfold DNode.view Node.view
  rw [latest_read h.rocks h.good]
  congr 1
  · cases n.store.latest <;> rfl
  · funext x
    rw [tx_read h.rocks h.good]
    cases n.store.txs x <;> rfl

/-! ### What is executed can be stored -/

theorem dispatch_storable {env : Env} {tx : SignedTx} {s s' : St} {r : ReceiptResult} (h : dispatch env tx s = (.ok r, s')) :
    tx.raw.action.deploysNonAsset = false ∧ r.deploysNonAsset = false := by
  unfold dispatch at h
  simp only at h
  split at h
  · rename_i hact
    refine ⟨by rw [hact]; rfl, ?_⟩
    unfold handleTransfer at h
    split at h
    · cases h
    · split at h
      · cases h
      · split at h
        · cases h
        · split at h
          · cases h
          · cases h; rfl
  · rename_i ty hact
    unfold handleDeploy at h
    split at h
    · refine ⟨by rw [hact]; rfl, ?_⟩
      split at h
      · cases h
      · simp only at h
        split at h
        · cases h
        · cases h; rfl
    · cases h
  · cases h
  · cases h

/-- A transaction whose dispatch panics cannot be executed: deployments of other contracts are not in an executed block. -/
theorem dispatch_nonasset {env : Env} {tx : SignedTx} {s : St} (h : tx.raw.action.deploysNonAsset = true) :
    (dispatch env tx s).1 = .error .panic := by
  unfold dispatch
  simp only
  split
  · rename_i hact; rw [hact] at h; cases h
  · rename_i code ty hact
    rw [hact] at h
    unfold handleDeploy
    cases ty <;> first | rfl | cases h
  · rfl
  · rfl

theorem execTx_storable {env : Env} {tx : SignedTx} {s s' : St} {r : Receipt} (h : execTx env tx s = (.ok r, s')) :
    tx.raw.action.deploysNonAsset = false ∧ r.result.deploysNonAsset = false := by
  unfold execTx at h
  simp only at h
  have hd : tx.raw.action.deploysNonAsset = false := by
    cases e : tx.raw.action.deploysNonAsset with
    | false => rfl
    | true =>
      have := dispatch_nonasset (env := env) (s := { s with used := 0 }) e
      rcases ed : dispatch env tx { s with used := 0 } with ⟨q, s1⟩
      rw [ed] at this h
      simp only at this
      subst this
      simp [settle] at h
  refine ⟨hd, ?_⟩
  rcases ed : dispatch env tx { s with used := 0 } with ⟨q, s1⟩
  rw [ed] at h
  cases q with
  | ok q =>
    simp only [settle] at h
    split at h
    · cases h
    · cases h; exact (dispatch_storable ed).2
  | error f =>
    cases f with
    | panic => simp [settle] at h
    | err e =>
      simp only [settle] at h
      split at h
      · cases h
      · cases h; rfl

theorem execLoop_storable {env : Env} (txs : List SignedTx) {s s' : St} {rs : List Receipt} (h : execLoop env txs s = (.ok rs, s')) :
    (∀ t ∈ txs, t.raw.action.deploysNonAsset = false) ∧ ∀ r ∈ rs, r.result.deploysNonAsset = false := by
  induction txs generalizing s rs with
  | nil => cases h; exact ⟨fun _ h => (by cases h), fun _ h => (by cases h)⟩
  | cons tx txs ih =>
    unfold execLoop at h
    rcases e1 : execTx env tx s with ⟨q, s1⟩
    rw [e1] at h
    cases q with
    | error f => cases h
    | ok r =>
      simp only at h
      rcases e2 : execLoop env txs s1 with ⟨q, s2⟩
      rw [e2] at h
      cases q with
      | error f => cases h
      | ok rs' =>
        cases h
        have a := execTx_storable e1
        have b := ih e2
        exact ⟨fun t ht => (List.mem_cons.1 ht).elim (fun e => e ▸ a.1) (b.1 t),
          fun t ht => (List.mem_cons.1 ht).elim (fun e => e ▸ a.2) (b.2 t)⟩

theorem runBlock_storable {env : Env} {db db' : StateDB} {root : MerkleRoot} {txs : List SignedTx} {resp : ExecResp}
    (h : runBlock env db root txs = (some (.ok resp), db')) :
    (∀ t ∈ txs, t.raw.action.deploysNonAsset = false) ∧ ∀ r ∈ resp.receipts, r.result.deploysNonAsset = false := by
  unfold runBlock at h
  split at h
  · cases h
  · split at h
    · rename_i s _ r s' he
      cases h
      unfold exec at he
      split at he
      · cases he
      · rename_i rs s1 hl
        cases he
        have := execLoop_storable txs hl
        refine ⟨this.1, fun r hr => ?_⟩
        obtain ⟨r0, h0, rfl⟩ := List.mem_map.1 hr
        exact this.2 r0 h0
    · cases h

/-! ### The operations -/

section
variable {cfg : NodeCfg} {L : DiskLib} {n : Node} {d : DNode}

theorem exec_grows (root : MerkleRoot) (i : UInt64) (c : Address) (txs : List SignedTx) : Grows n (n.exec cfg root i c txs).2 := by
  unfold Node.exec
  split <;> exact fun _ h => h

theorem exec_dgrows (o : Bool) (root : MerkleRoot) (i : UInt64) (c : Address) (txs : List SignedTx) :
    DGrows L d (d.exec cfg L o root i c txs).2 := by
  have := TrieSteps.call (L := L) (.block (cfg.env i d.status.cyclesPrice c) o root txs) (.refl (t := d.tries))
  simp only [byteCall] at this
  unfold DNode.exec DGrows
  split <;> (rename_i e; rw [e] at this; exact this)

theorem exec_out (he : cfg.rootOf = worldRoot L.trie) (h : DSim cfg L n d) (o : Bool) (root : MerkleRoot) (i : UInt64) (c : Address)
    (txs : List SignedTx) : Out cfg L (n.exec cfg root i c txs) (d.exec cfg L o root i c txs) := by
  by_cases hc : Collides L.trie d.tries
  · exact .inl (.inr (hc.mono (exec_dgrows o root i c txs).mem))
  have := call_sim h.tries hc L.showCodec (.block (cfg.env i d.status.cyclesPrice c) o root txs) he
  simp only [typedCall, byteCall] at this
  unfold Node.exec DNode.exec
  rw [← h.status]
  rcases e : bRunBlock L.trie (cfg.env i d.status.cyclesPrice c) L.showCodec o d.tries root txs with ⟨q, t⟩
  rcases e' : runBlock (cfg.env i d.status.cyclesPrice c) n.tries root txs with ⟨q', t'⟩
  rw [e, e'] at this
  simp only at this
  rcases this with hmem | ⟨h1, h2⟩
  · right; left
    match q, hmem with
    | some (.error .memory), _ => rfl
  · rcases h1 with h1 | h1
    · cases q' with
      | none => right; right; left; rfl
      | some x => cases h1
    · cases q' with
      | none => right; right; left; rfl
      | some x =>
        have hq : q = some (liftE x) := by
          cases q with
          | none => cases h1
          | some y => simp only [Option.map_some, ExecAns.toB, Option.some.injEq, ExecAns.block.injEq] at h1; rw [h1]
        subst hq
        right; right; right
        cases x with
        | ok resp => exact ⟨rfl, ⟨h.rocks, h.good, h2, h.pool, rfl, h.exempt⟩⟩
        | error f => cases f <;> exact ⟨rfl, ⟨h.rocks, h.good, h2, h.pool, rfl, h.exempt⟩⟩

theorem exec_storable {root : MerkleRoot} {i : UInt64} {c : Address} {txs : List SignedTx} {resp : ExecResp} {n' : Node}
    (h : n.exec cfg root i c txs = (.ok resp, n')) :
    (∀ t ∈ txs, t.raw.action.deploysNonAsset = false) ∧ ∀ r ∈ resp.receipts, r.result.deploysNonAsset = false := by
  unfold Node.exec at h
  split at h <;> try cases h
  rename_i e
  exact runBlock_storable e

theorem saveProof_grows (io : SaveIo) (p : Proof) : Grows n (n.saveProof cfg io p).2 := by
  unfold Node.saveProof
  split
  · exact fun k h => byHash_writes _ _ k h
  · exact fun _ h => h

theorem saveProof_dgrows (io : SaveIo) (p : Proof) : DGrows L d (d.saveProof cfg io p).2 := by
  unfold DNode.saveProof
  split
  · exact save_dgrows _ _ _
  · exact .refl _

theorem saveProof_out (hk : cfg.keys.epoch ≠ cfg.keys.proof) (h : DSim cfg L n d) (io : SaveIo) (p : Proof) :
    Out cfg L (n.saveProof cfg io p) (d.saveProof cfg io p) := by
  unfold Node.saveProof DNode.saveProof
  split
  · exact save_out hk _ (fun w hw => by
      simp only [StoreOp.writes, List.mem_singleton] at hw
      subst hw
      exact ⟨nofun, nofun⟩) h
  · exact .inr (.inr (.inr ⟨rfl, h⟩))

theorem updateStatus_grows (io : SaveIo) (root : MerkleRoot) (i : UInt64) (e : Epoch) (p : Proof) (resp : ExecResp) (txs : List SignedTx) :
    Grows n (n.updateStatus cfg io root i e p resp txs).2 := by
  unfold Node.updateStatus
  split
  · exact .refl _
  · simp only
    split
    · exact fun k h => byHash_writes _ _ k h
    · split
      · exact fun k h => byHash_writes _ _ k (byHash_writes _ _ k (byHash_writes _ _ k h))
      · exact fun k h => byHash_writes _ _ k (byHash_writes _ _ k (byHash_writes _ _ k h))

theorem updateStatus_dgrows (io : SaveIo) (i : UInt64) (e : Epoch) (p : Proof) (resp : ExecResp) (txs : List SignedTx) :
    DGrows L d (d.updateStatus cfg io i e p resp txs).2 := by
  unfold DNode.updateStatus
  split
  · exact .refl _
  · refine DGrows.bindU (save_dgrows _ _ _) fun d1 => ?_
    split
    · exact .refl _
    · refine DGrows.bindU (save_dgrows _ _ _) fun d2 => ?_
      refine DGrows.bindU (save_dgrows _ _ _) fun d3 => ?_
      split <;> exact .refl _

theorem updateStatus_out (hk : cfg.keys.epoch ≠ cfg.keys.proof) (h : DSim cfg L n d) (io : SaveIo) (root : MerkleRoot) (i : UInt64)
    (e : Epoch) (p : Proof) (resp : ExecResp) (txs : List SignedTx) (ht : ∀ t ∈ txs, t.raw.action.deploysNonAsset = false)
    (hr : ∀ r ∈ resp.receipts, r.result.deploysNonAsset = false) :
    Out cfg L (n.updateStatus cfg io root i e p resp txs) (d.updateStatus cfg io i e p resp txs) := by
  unfold Node.updateStatus DNode.updateStatus
  split
  · exact .inr (.inr (.inr ⟨rfl, h⟩))
  · refine Out.thenU (save_out hk _ ?_ h) (fun d1 h1 => ?_) ?_ (fun d1 => ?_)
    · intro w hw
      simp only [StoreOp.writes, List.mem_singleton] at hw
      subst hw
      exact ⟨nofun, fun l e => by cases e; exact hr⟩
    · simp only
      split
      · exact .inr (.inr (.inr ⟨rfl, h1⟩))
      · refine Out.thenU (save_out hk _ ?_ h1) (fun d2 h2 => ?_) ?_ (fun d2 => ?_)
        · intro w hw
          simp only [StoreOp.writes, List.mem_singleton] at hw
          subst hw
          exact ⟨fun l e => by cases e; exact ht, nofun⟩
        · refine Out.thenU (save_out hk _ ?_ h2) (fun d3 h3 => ?_) ?_ (fun d3 => ?_)
          · intro w hw
            have hw := List.mem_of_mem_take hw
            simp only [StoreOp.writes, List.mem_cons, List.not_mem_nil, or_false] at hw
            rcases hw with rfl | rfl | rfl <;> exact ⟨nofun, nofun⟩
          · split
            · exact .inr (.inr (.inr ⟨rfl, h3⟩))
            · exact .inr (.inr (.inr ⟨rfl, ⟨h3.rocks, h3.good, h3.tries, h3.pool, by simp only [h3.status], h3.exempt⟩⟩))
          · split <;> exact .refl _
          · split <;> exact .refl _
        · split <;> exact fun k h => byHash_writes _ _ k h
        · refine DGrows.bindU (save_dgrows _ _ _) fun d3 => ?_
          split <;> exact .refl _
    · simp only
      split
      · exact .refl _
      · split <;> exact fun k h => byHash_writes _ _ k (byHash_writes _ _ k h)
    · split
      · exact .refl _
      · refine DGrows.bindU (save_dgrows _ _ _) fun d2 => ?_
        refine DGrows.bindU (save_dgrows _ _ _) fun d3 => ?_
        split <;> exact .refl _

/-! ### Proposals and checks -/

theorem getEpoch_out (h : DSim cfg L n d) (now i : UInt64) : Out cfg L (n.getEpoch cfg now i) (d.getEpoch cfg now i) := by
  unfold Node.getEpoch DNode.getEpoch
  rw [view_eq h, h.pool, h.status]
  rcases n.pool.package (n.view cfg (fun _ => none) true) n.status.cyclesLimit with ⟨e | ⟨order, propose⟩, p⟩
  · exact .inr (.inr (.inr ⟨rfl, ⟨h.rocks, h.good, h.tries, rfl, rfl, h.exempt⟩⟩))
  · simp only
    split
    · exact .inr (.inr (.inr ⟨rfl, ⟨h.rocks, h.good, h.tries, rfl, rfl, h.exempt⟩⟩))
    · exact .inr (.inr (.inr ⟨rfl, ⟨h.rocks, h.good, h.tries, rfl, rfl, by simp only [h.exempt]⟩⟩))

theorem getEpoch_dgrows (now i : UInt64) : DGrows L d (d.getEpoch cfg now i).2 := by
  unfold DNode.getEpoch
  split
  · exact TrieSteps.refl
  · split <;> exact TrieSteps.refl

theorem checkEpoch_out (h : DSim cfg L n d) (p1 p2 : List Hash → Option (List SignedTx)) (hash : Bytes) (pill : Pill) :
    Out cfg L (n.checkEpoch cfg p1 p2 hash pill) (d.checkEpoch cfg p1 p2 hash pill) := by
  unfold Node.checkEpoch DNode.checkEpoch
  simp only [h.exempt, h.pool]
  split
  · rcases n.pool.getFullTxs pill.epoch.orderedTxHashes with e | txs
    · exact .inr (.inr (.inr ⟨rfl, h⟩))
    · exact .inr (.inr (.inr ⟨rfl, h⟩))
  · rw [view_eq h]
    rcases n.pool.syncProposeTxs (n.view cfg p1 true) pill.proposeHashes with ⟨e | u, p⟩
    · exact .inr (.inr (.inr ⟨rfl, ⟨h.rocks, h.good, h.tries, rfl, h.status, rfl⟩⟩))
    · simp only
      rw [view_eq h]
      rcases p.ensureOrderTxs (n.view cfg p2 true) pill.epoch.orderedTxHashes with ⟨e | u, p'⟩
      · exact .inr (.inr (.inr ⟨rfl, ⟨h.rocks, h.good, h.tries, rfl, h.status, rfl⟩⟩))
      · simp only
        rcases p'.getFullTxs pill.epoch.orderedTxHashes with e | txs
        · exact .inr (.inr (.inr ⟨rfl, ⟨h.rocks, h.good, h.tries, rfl, h.status, rfl⟩⟩))
        · exact .inr (.inr (.inr ⟨rfl, ⟨h.rocks, h.good, h.tries, rfl, h.status, rfl⟩⟩))

theorem checkEpoch_dgrows (p1 p2 : List Hash → Option (List SignedTx)) (hash : Bytes) (pill : Pill) :
    DGrows L d (d.checkEpoch cfg p1 p2 hash pill).2 := by
  unfold DNode.checkEpoch
  simp only
  split
  · split <;> exact TrieSteps.refl
  · split
    · exact TrieSteps.refl
    · split
      · exact TrieSteps.refl
      · split <;> exact TrieSteps.refl

/-! ### Commits -/

theorem commitTail_grows (io : CommitIo) (i : UInt64) (pill : Pill) (p : Proof) (txs : List SignedTx) :
    Grows n (n.commitTail cfg io i pill p txs).2 := by
  unfold Node.commitTail
  simp only
  refine Grows.cont (n0 := n) (fun x => match x with
      | (.error e, n2) => (.error e, n2)
      | (.ok resp, n2) =>
        match n2.updateStatus cfg io.save n.status.stateRoot i pill.epoch p resp txs with
        | (.error e, n3) => (.error e, n3)
        | (.ok (), n3) => if io.transmit then (.ok (i + 1), n3) else (.error .network, n3))
    (exec_grows (n := { n with pool := n.pool.flush pill.epoch.orderedTxHashes }) _ _ _ _) (fun _ _ => rfl) fun resp n2 => ?_
  refine Grows.bindU (updateStatus_grows _ _ _ _ _ _ _) fun n3 => ?_
  split <;> exact .refl _

theorem commitTail_dgrows (o : Bool) (io : CommitIo) (i : UInt64) (pill : Pill) (p : Proof) (txs : List SignedTx) :
    DGrows L d (d.commitTail cfg L o io i pill p txs).2 := by
  unfold DNode.commitTail
  simp only
  refine DGrows.cont (n0 := d) (fun x => match x with
      | (.error e, d2) => (.error e, d2)
      | (.ok resp, d2) =>
        match d2.updateStatus cfg io.save i pill.epoch p resp txs with
        | (.error e, d3) => (.error e, d3)
        | (.ok (), d3) => if io.transmit then (.ok (i + 1), d3) else (.error (.node .network), d3))
    (exec_dgrows (d := { d with pool := d.pool.flush pill.epoch.orderedTxHashes }) _ _ _ _ _) (fun _ _ => rfl) fun resp n2 => ?_
  refine DGrows.bindU (updateStatus_dgrows _ _ _ _ _ _) fun n3 => ?_
  split <;> exact .refl _

theorem commitTail_out (he : cfg.rootOf = worldRoot L.trie) (hk : cfg.keys.epoch ≠ cfg.keys.proof) (h : DSim cfg L n d) (o : Bool) (io : CommitIo)
    (i : UInt64) (pill : Pill) (p : Proof) (txs : List SignedTx) :
    Out cfg L (n.commitTail cfg io i pill p txs) (d.commitTail cfg L o io i pill p txs) := by
  unfold Node.commitTail DNode.commitTail
  have h0 : DSim cfg L { n with pool := n.pool.flush pill.epoch.orderedTxHashes } { d with pool := d.pool.flush pill.epoch.orderedTxHashes, status := n.status } :=
    ⟨h.rocks, h.good, h.tries, by simp only [h.pool], rfl, h.exempt⟩
  simp only [h.status]
  refine Out.cont (fun x => match x with
      | (.error e, n2) => (.error e, n2)
      | (.ok resp, n2) =>
        match n2.updateStatus cfg io.save n.status.stateRoot i pill.epoch p resp txs with
        | (.error e, n3) => (.error e, n3)
        | (.ok (), n3) => if io.transmit then (.ok (i + 1), n3) else (.error .network, n3))
    (fun x => match x with
      | (.error e, d2) => (.error e, d2)
      | (.ok resp, d2) =>
        match d2.updateStatus cfg io.save i pill.epoch p resp txs with
        | (.error e, d3) => (.error e, d3)
        | (.ok (), d3) => if io.transmit then (.ok (i + 1), d3) else (.error (.node .network), d3))
    (exec_out he h0 o _ _ _ _) (fun _ _ => rfl) (fun _ _ => rfl) (fun resp n2 d2 e1 _ h2 => ?_) (fun resp n2 => ?_) (fun resp d2 => ?_)
  · have hs := exec_storable e1
    refine Out.bindU (updateStatus_out hk h2 _ _ _ _ _ _ _ hs.1 hs.2) (fun n3 d3 h3 => ?_) (fun n3 => ?_) (fun d3 => ?_)
    · split <;> exact .inr (.inr (.inr ⟨rfl, h3⟩))
    · split <;> exact .refl _
    · split <;> exact .refl _
  · refine Grows.bindU (updateStatus_grows _ _ _ _ _ _ _) fun n3 => ?_
    split <;> exact .refl _
  · refine DGrows.bindU (updateStatus_dgrows _ _ _ _ _ _) fun n3 => ?_
    split <;> exact .refl _

theorem commit_grows' (io : CommitIo) (i : UInt64) (pill : Pill) (p : OverlordProof) : Grows n (n.commit cfg io i pill p).2 := by
  unfold Node.commit
  split
  · exact .refl _
  · split
    · exact .refl _
    · refine Grows.bindU (saveProof_grows _ _) fun n1 => ?_
      split
      · exact .refl _
      · split
        · exact .refl _
        · exact commitTail_grows _ _ _ _ _

theorem commit_dgrows (o : Bool) (io : CommitIo) (i : UInt64) (pill : Pill) (p : OverlordProof) : DGrows L d (d.commit cfg L o io i pill p).2 := by
  unfold DNode.commit
  split
  · exact .refl _
  · split
    · exact .refl _
    · refine DGrows.bindU (saveProof_dgrows _ _) fun n1 => ?_
      split
      · exact .refl _
      · split
        · exact .refl _
        · exact commitTail_dgrows _ _ _ _ _ _

theorem commit_out (he : cfg.rootOf = worldRoot L.trie) (hk : cfg.keys.epoch ≠ cfg.keys.proof) (h : DSim cfg L n d) (o : Bool) (io : CommitIo)
    (i : UInt64) (pill : Pill) (p : OverlordProof) : Out cfg L (n.commit cfg io i pill p) (d.commit cfg L o io i pill p) := by
  unfold Node.commit DNode.commit
  split
  · exact .inr (.inr (.inr ⟨rfl, h⟩))
  · rcases p.toProof with _ | p
    · exact .inr (.inr (.inr ⟨rfl, h⟩))
    · refine Out.bindU (saveProof_out hk h _ _) (fun n1 d1 h1 => ?_) (fun n1 => ?_) (fun d1 => ?_)
      · split
        · exact .inr (.inr (.inr ⟨rfl, h1⟩))
        · rw [h1.pool]
          rcases n1.pool.getFullTxs pill.epoch.orderedTxHashes with e | txs
          · exact .inr (.inr (.inr ⟨rfl, h1⟩))
          · exact commitTail_out he hk h1 _ _ _ _ _ _
      · split
        · exact .refl _
        · split
          · exact .refl _
          · exact commitTail_grows _ _ _ _ _
      · split
        · exact .refl _
        · split
          · exact .refl _
          · exact commitTail_dgrows _ _ _ _ _ _

/-! ### Synchronisation -/

theorem syncOne_grows (io : SyncIo) (k : Nat) (id : UInt64) (c r : Hash) : Grows n (n.syncOne cfg io k id c r).2 := by
  unfold Node.syncOne
  split
  · exact .refl _
  · rename_i epoch _
    split
    · exact .refl _
    · refine Grows.bindU (saveProof_grows _ _) fun n1 => ?_
      split
      · exact .refl _
      · rename_i txs _
        refine Grows.cont (fun x => match x with
          | (.error e, n2) => (.error e, n2)
          | (.ok resp, n2) =>
            match n2.updateStatus cfg (io.save k) r epoch.header.epochId epoch epoch.header.proof resp txs with
            | (.error e, n3) => (.error e, n3)
            | (.ok (), n3) => (.ok (cfg.epochHash epoch, resp.stateRoot), n3)) (exec_grows _ _ _ _) (fun _ _ => rfl) fun resp n2 => ?_
        exact Grows.bindU (updateStatus_grows _ _ _ _ _ _ _) fun n3 => .refl _

theorem syncOne_dgrows (o : Nat → Bool) (io : SyncIo) (k : Nat) (id : UInt64) (c r : Hash) : DGrows L d (d.syncOne cfg L o io k id c r).2 := by
  unfold DNode.syncOne
  split
  · exact .refl _
  · rename_i epoch _
    split
    · exact .refl _
    · refine DGrows.bindU (saveProof_dgrows _ _) fun n1 => ?_
      split
      · exact .refl _
      · rename_i txs _
        refine DGrows.cont (fun x => match x with
          | (.error e, d2) => (.error e, d2)
          | (.ok resp, d2) =>
            match d2.updateStatus cfg (io.save k) epoch.header.epochId epoch epoch.header.proof resp txs with
            | (.error e, d3) => (.error e, d3)
            | (.ok (), d3) => (.ok (cfg.epochHash epoch, resp.stateRoot), d3)) (exec_dgrows _ _ _ _ _) (fun _ _ => rfl) fun resp n2 => ?_
        exact DGrows.bindU (updateStatus_dgrows _ _ _ _ _ _) fun n3 => .refl _

theorem syncOne_out (he : cfg.rootOf = worldRoot L.trie) (hk : cfg.keys.epoch ≠ cfg.keys.proof) (h : DSim cfg L n d) (o : Nat → Bool) (io : SyncIo)
    (k : Nat) (id : UInt64) (c r : Hash) : Out cfg L (n.syncOne cfg io k id c r) (d.syncOne cfg L o io k id c r) := by
  unfold Node.syncOne DNode.syncOne
  rcases io.pullEpoch k id with _ | epoch
  · exact .inr (.inr (.inr ⟨rfl, h⟩))
  · simp only
    split
    · exact .inr (.inr (.inr ⟨rfl, h⟩))
    · refine Out.bindU (saveProof_out hk h _ _) (fun n1 d1 h1 => ?_) (fun n1 => ?_) (fun d1 => ?_)
      · rcases io.pullTxs k epoch.orderedTxHashes with _ | txs
        · exact .inr (.inr (.inr ⟨rfl, h1⟩))
        · simp only
          refine Out.cont (fun x => match x with
          | (.error e, n2) => (.error e, n2)
          | (.ok resp, n2) =>
            match n2.updateStatus cfg (io.save k) r epoch.header.epochId epoch epoch.header.proof resp txs with
            | (.error e, n3) => (.error e, n3)
            | (.ok (), n3) => (.ok (cfg.epochHash epoch, resp.stateRoot), n3))
            (fun x => match x with
          | (.error e, d2) => (.error e, d2)
          | (.ok resp, d2) =>
            match d2.updateStatus cfg (io.save k) epoch.header.epochId epoch epoch.header.proof resp txs with
            | (.error e, d3) => (.error e, d3)
            | (.ok (), d3) => (.ok (cfg.epochHash epoch, resp.stateRoot), d3)) (exec_out he h1 _ _ _ _ _) (fun _ _ => rfl) (fun _ _ => rfl) (fun resp n2 d2 e1 _ h2 => ?_) (fun resp n2 => ?_) (fun resp d2 => ?_)
          · have hs := exec_storable e1
            exact Out.bindU (updateStatus_out hk h2 _ _ _ _ _ _ _ hs.1 hs.2) (fun n3 d3 h3 => .inr (.inr (.inr ⟨rfl, h3⟩))) (fun n3 => .refl _)
              (fun d3 => .refl _)
          · exact Grows.bindU (updateStatus_grows _ _ _ _ _ _ _) fun n3 => .refl _
          · exact DGrows.bindU (updateStatus_dgrows _ _ _ _ _ _) fun n3 => .refl _
      · split
        · exact .refl _
        · rename_i txs _
          refine Grows.cont (fun x => match x with
          | (.error e, n2) => (.error e, n2)
          | (.ok resp, n2) =>
            match n2.updateStatus cfg (io.save k) r epoch.header.epochId epoch epoch.header.proof resp txs with
            | (.error e, n3) => (.error e, n3)
            | (.ok (), n3) => (.ok (cfg.epochHash epoch, resp.stateRoot), n3)) (exec_grows _ _ _ _) (fun _ _ => rfl) fun resp n2 => ?_
          exact Grows.bindU (updateStatus_grows _ _ _ _ _ _ _) fun n3 => .refl _
      · split
        · exact .refl _
        · rename_i txs _
          refine DGrows.cont (fun x => match x with
          | (.error e, d2) => (.error e, d2)
          | (.ok resp, d2) =>
            match d2.updateStatus cfg (io.save k) epoch.header.epochId epoch epoch.header.proof resp txs with
            | (.error e, d3) => (.error e, d3)
            | (.ok (), d3) => (.ok (cfg.epochHash epoch, resp.stateRoot), d3)) (exec_dgrows _ _ _ _ _) (fun _ _ => rfl) fun resp n2 => ?_
          exact DGrows.bindU (updateStatus_dgrows _ _ _ _ _ _) fun n3 => .refl _

end

theorem syncLoop_grows {cfg : NodeCfg} (io : SyncIo) (ids : List UInt64) : ∀ (k : Nat) (c r : Hash) (n : Node),
    Grows n (Node.syncLoop cfg io k ids c r n).2 := by
  induction ids with
  | nil => exact fun _ _ _ _ => .refl _
  | cons id ids ih =>
    intro k c r n
    unfold Node.syncLoop
    have := syncOne_grows (cfg := cfg) (n := n) io k id c r
    rcases e : n.syncOne cfg io k id c r with ⟨q, n1⟩
    rw [e] at this
    cases q with
    | error e => exact this
    | ok x => exact this.trans (ih _ _ _ _)

theorem syncLoop_dgrows {cfg : NodeCfg} {L : DiskLib} (o : Nat → Bool) (io : SyncIo) (ids : List UInt64) : ∀ (k : Nat) (c r : Hash) (n : DNode),
    DGrows L n (DNode.syncLoop cfg L o io k ids c r n).2 := by
  induction ids with
  | nil => exact fun _ _ _ _ => .refl _
  | cons id ids ih =>
    intro k c r n
    unfold DNode.syncLoop
    have := syncOne_dgrows (cfg := cfg) (L := L) (d := n) o io k id c r
    rcases e : n.syncOne cfg L o io k id c r with ⟨q, n1⟩
    rw [e] at this
    cases q with
    | error e => exact this
    | ok x => exact this.trans (ih _ _ _ _)

theorem syncLoop_out {cfg : NodeCfg} {L : DiskLib} (he : cfg.rootOf = worldRoot L.trie) (hk : cfg.keys.epoch ≠ cfg.keys.proof) (o : Nat → Bool)
    (io : SyncIo) (ids : List UInt64) : ∀ (k : Nat) (c r : Hash) (n : Node) (d : DNode), DSim cfg L n d →
    Out cfg L (Node.syncLoop cfg io k ids c r n) (DNode.syncLoop cfg L o io k ids c r d) := by
  induction ids with
  | nil => exact fun _ _ _ _ _ h => .inr (.inr (.inr ⟨rfl, h⟩))
  | cons id ids ih =>
    intro k c r n d h
    unfold Node.syncLoop DNode.syncLoop
    have := Out.bind (syncOne_out he hk h o io k id c r) (k := fun x n => Node.syncLoop cfg io (k + 1) ids x.1 x.2 n)
      (k' := fun x d => DNode.syncLoop cfg L o io (k + 1) ids x.1 x.2 d) (fun x n1 d1 _ _ h1 => ih _ _ _ _ _ h1)
      (fun x n => syncLoop_grows io ids _ _ _ _) (fun x d => syncLoop_dgrows o io ids _ _ _ _)
    revert this
    rcases n.syncOne cfg io k id c r with ⟨q, n1⟩
    rcases d.syncOne cfg L o io k id c r with ⟨q', d1⟩
    intro this
    cases q <;> cases q' <;> exact this

section
variable {cfg : NodeCfg} {L : DiskLib} {n : Node} {d : DNode}

theorem syncStart_eq (h : DSim cfg L n d) (io : SyncIo) (cur : UInt64) : d.syncStart cfg io cur = liftC (n.syncStart cfg io cur) := by
  unfold Node.syncStart DNode.syncStart
  split
  · rfl
  · rw [epoch_read h.rocks h.good]
    cases n.store.epochs cur with
    | none => rfl
    | some e =>
      simp only [answer]
      cases io.pullEpoch 0 (cur + 1) with
      | none => rfl
      | some next =>
        simp only
        by_cases hne : cfg.epochHash e ≠ next.header.preHash
        · rw [if_pos hne, if_pos hne]; rfl
        · rw [if_neg hne, if_neg hne]; rfl

theorem currentId_eq (h : DSim cfg L n d) : d.currentId cfg = n.currentId := by
  unfold Node.currentId DNode.currentId
  rw [latest_read h.rocks h.good]
  cases n.store.latest <;> rfl

theorem updateEpoch_grows (io : SyncIo) (msg : Bytes) : Grows n (n.updateEpoch cfg io msg).2 := by
  unfold Node.updateEpoch
  split
  · exact .refl _
  · simp only
    split
    · exact .refl _
    · split
      · exact .refl _
      · split
        · exact .refl _
        · refine Grows.bindU (syncLoop_grows _ _ _ _ _ _) fun n1 => ?_
          split <;> exact .refl _

theorem updateEpoch_dgrows (o : Nat → Bool) (io : SyncIo) (msg : Bytes) : DGrows L d (d.updateEpoch cfg L o io msg).2 := by
  unfold DNode.updateEpoch
  split
  · exact .refl _
  · simp only
    split
    · exact .refl _
    · split
      · exact .refl _
      · split
        · exact .refl _
        · refine DGrows.bindU (syncLoop_dgrows _ _ _ _ _ _ _) fun n1 => ?_
          split <;> exact .refl _

theorem updateEpoch_out (he : cfg.rootOf = worldRoot L.trie) (hk : cfg.keys.epoch ≠ cfg.keys.proof) (h : DSim cfg L n d) (o : Nat → Bool)
    (io : SyncIo) (msg : Bytes) : Out cfg L (n.updateEpoch cfg io msg) (d.updateEpoch cfg L o io msg) := by
  unfold Node.updateEpoch DNode.updateEpoch
  rcases readU64LE msg with _ | ⟨v, rest⟩
  · exact .inr (.inr (.inr ⟨rfl, h⟩))
  · simp only [currentId_eq h, syncStart_eq h]
    split
    · exact .inr (.inr (.inr ⟨rfl, h⟩))
    · split
      · exact .inr (.inr (.inr ⟨rfl, h⟩))
      · rcases n.syncStart cfg io n.currentId with e | ⟨c, r⟩
        · exact .inr (.inr (.inr ⟨rfl, h⟩))
        · refine Out.bindU (syncLoop_out he hk o io _ _ _ _ _ _ h) (fun n1 d1 h1 => ?_) (fun n1 => ?_) (fun d1 => ?_)
          · split <;> exact .inr (.inr (.inr ⟨rfl, h1⟩))
          · split <;> exact .refl _
          · split <;> exact .refl _

end

end Huobi
