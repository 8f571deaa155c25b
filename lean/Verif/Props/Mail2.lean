import Verif.Props.Mail
import Verif.Props.Takeover
/-
C94 for messages on their way through the tasks of the network (C107), at every moment.
-/
namespace Huobi

theorem receiveMail_node (z : Compression) (cfg : NodeCfg) (n : Node) (ys : List ((Nat × Bytes) × SyncIo)) :
    (n.receiveMail z cfg ys).2 = n.receiveAll z cfg (ys.map fun y => (y.2, y.1.1, y.1.2)) := by
  unfold Node.receiveMail Node.receiveAll
  rw [List.foldl_map]
  generalize ([] : List (Nat × Bytes)) = out
  induction ys generalizing n out with
  | nil => rfl
  | cons y ys ih => rw [List.foldl_cons, List.foldl_cons]; exact ih ..

/-- The node at any moment of any schedule is as after receiving some of the messages that arrived, one after the other. -/
theorem mail_node (z : Compression) (cfg : NodeCfg) (n : Node) (evs : List (MailEvent Handler SyncIo)) :
    ∃ msgs : List (SyncIo × Nat × Bytes), (∀ m ∈ msgs, m.2 ∈ mailed evs) ∧ ((Mail.new ([], n)).run (nodeMail z cfg) evs).node.2 = n.receiveAll z cfg msgs := by
  obtain ⟨handled, dropped, waiting, hp, hh, -, -⟩ := C107_once (nodeMail z cfg) ([], n) evs
  obtain ⟨ys, h1, h2⟩ := hh.receiveMail
  refine ⟨ys.map fun y => (y.2, y.1.1, y.1.2), fun m hm => ?_, by rw [← h2, receiveMail_node]⟩
  obtain ⟨y, hy, rfl⟩ := List.mem_map.1 hm
  refine hp.mem_iff.1 (List.mem_append_left _ ?_)
  rw [← h1]
  exact List.mem_map_of_mem hy

/-- **C94 at every moment (partial).**  Whatever messages arrive at a node, from whomever, and in whatever order the tasks that route and handle them run:
at every moment, if none of the messages that arrived so far announces a height, stored data, states and status of the node are as they were; no
transaction left the pool, and what was added was signed by its owner, belongs to the chain, is within its life time and was not executed before. -/
theorem C94_mail_partial {z : Compression} {cfg : NodeCfg} {g : Genesis} {ok : Node → NodeOp → Prop} {n : Node} (h : Lives cfg g ok n)
    (evs : List (MailEvent Handler SyncIo)) (hm : ∀ x ∈ mailed evs, ¬ Announces z x.2) :
    Unmoved cfg n ((Mail.new ([], n)).run (nodeMail z cfg) evs).node.2 ∧ PoolKept cfg n ((Mail.new ([], n)).run (nodeMail z cfg) evs).node.2 := by
  obtain ⟨msgs, h1, h2⟩ := mail_node z cfg n evs
  rw [h2]
  exact C94_messages_partial h msgs fun m hx => hm _ (h1 m hx)

/-- C94 at every moment: no message of any kind removes a transaction from the pool. -/
theorem C94_mail_nothing_evicted {z : Compression} {cfg : NodeCfg} {g : Genesis} {ok : Node → NodeOp → Prop} {n : Node} (h : Lives cfg g ok n)
    (evs : List (MailEvent Handler SyncIo)) {k : Hash} {t : SignedTx} (ht : n.pool.cache.get k = some t) :
    ((Mail.new ([], n)).run (nodeMail z cfg) evs).node.2.pool.cache.get k = some t := by
  obtain ⟨msgs, -, h2⟩ := mail_node z cfg n evs
  rw [h2]
  exact C94_nothing_evicted h msgs ht

open Demo in
/-- The hypotheses on a real case: a batch with a new transaction and garbage arrive at a node; neither announces a height; the transaction is pooled
while the garbage is still under way. -/
example :
    let raw := demoZip.compress (pbEncode (NetMsg.mk endNewTxs (encMulti [npay 1 2 10])))
    let evs : List (MailEvent Handler SyncIo) := [.arrive 6 [255], .arrive 5 raw, .routerTake, .routerTake, .route 1, .reactorTake .newTxs, .react 0 (peer n0)]
    let s := (Mail.new ([], n0)).run (nodeMail demoZip ncfg) evs
    mailed evs = [(6, [255]), (5, raw)] ∧ unframe demoZip [255] = none ∧
      unframe demoZip raw = some ⟨endNewTxs, encMulti [npay 1 2 10]⟩ ∧ Endpoint.root ⟨endNewTxs⟩ ≠ Endpoint.root ⟨endRichEpochId⟩ ∧
      s.routing = [(6, [255])] ∧ s.node.2.pool.cache.get (npay 1 2 10).txHash = some (npay 1 2 10) := by
  refine ⟨rfl, rfl, by decide +kernel, by decide +kernel, by decide +kernel, by decide +kernel⟩

end Huobi
