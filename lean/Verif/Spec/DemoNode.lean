import Verif.Props.Merkle
import Verif.Props.Consensus
/-
A concrete node, used as the witness of refutations and to show that hypotheses are met.
-/
namespace Huobi.Demo

/-- User `n` of the node examples. -/
def nuser (n : UInt8) : UserAddress := UserAddress.fromPubkey mix [n]
def naddr (n : UInt8) : Address := .user (nuser n)

/-- The system token of the genesis below. -/
def hexToken : String := "a5df415f97c94279cb9df4eedf6413853b8d3af250551adaaa3ffe684aaa2b92"
def token : AssetID := (Hash.fromHex hexToken.toList).getD default

/-- Users 1 and 2 get 100 and 50 of the system token. -/
def ngenesis : Genesis :=
  { timestamp := 0, prevhash := "", systemToken := ⟨"abcd", "Huobi Token", "HT", 1000⟩
    stateAlloc := [⟨"100907000000000000000000000000000000000000", [⟨hexToken, "64"⟩]⟩,
      ⟨"100a07000000000000000000000000000000000000", [⟨hexToken, "32"⟩]⟩] }

/-- A root for examples: balances and nonces of users 1, 2, 3. -/
def nroot (w : World) : Hash :=
  ⟨[UInt8.ofNat (balance w (naddr 1) token), UInt8.ofNat (balance w (naddr 2) token), UInt8.ofNat (balance w (naddr 3) token),
    (nonceOf w (naddr 1)).toUInt8, (nonceOf w (naddr 2)).toUInt8] ++ List.replicate 26 0 ++ [1], by simp⟩

/-- The configuration of the examples. -/
def ncfg : NodeCfg :=
  { digest := mix, rootOf := nroot, showErr := fun _ => "error", sigOk := fun _ _ _ => true, layout := heapLayout, chainId := hash 9
    selfAddress := nuser 99, cyclesPrice := 0, cyclesLimit := 1000000, validators := [⟨nuser 99, 1, 1⟩], interval := 1, poolSize := 100
    timeoutGap := 20 }

/-- A node that has nothing under the root of the empty trie meets `EmptyRoot`. -/
theorem ncfg_emptyRoot {cfg : NodeCfg} {n : Node} (h : (n.tries cfg.emptyHash).isNone = true) : EmptyRoot cfg n := by
  intro w hw
  rw [hw] at h
  cases h

theorem ncfg_emptyRootOf (w : World) : EmptyRootOf ncfg w := by
  intro h
  exfalso
  have h1 : (ncfg.rootOf w).bytes.getLast? = some 1 := by simp [ncfg, nroot]
  rw [h] at h1
  revert h1
  decide +kernel

/-- User `s` pays `amount` to user `r`; `seq` makes transactions different. -/
def npay (s r : UInt8) (amount : Nat) (seq : UInt8 := 0) : SignedTx :=
  let raw : RawTx := { chainId := hash 9, nonce := hash seq, timeout := 10, fee := ⟨token, 10000⟩, action := .transfer (nuser r) ⟨token, amount⟩ }
  { raw := raw, txHash := mix (encode raw), pubkey := [s], signature := [] }

/-- The stored data after `handle_init`. -/
def ninit : Option (Store × StateDB) := handleInit ncfg ngenesis Store.empty PMap.empty

/-- The node after the first start. -/
def nstart : Option Node := ninit.bind (fun x => startNode ncfg x.1 x.2)

def noNode : Node :=
  { store := Store.empty, tries := PMap.empty, pool := MemPool.new 0 0, status := startStatus ncfg (epochOf 0 []), exempt := [], log := [] }

/-- The node of the examples, freshly started. -/
def n0 : Node := nstart.getD noNode

def noPill : Pill := ⟨epochOf 0 [], []⟩

/-- What the node proposes. -/
def proposal (n : Node) : Pill :=
  match (n.getEpoch ncfg 7 n.status.epochId).1 with
  | .ok (pill, _) => pill
  | .error _ => noPill

def oproof (id : UInt64) : OverlordProof := ⟨id, 0, List.replicate 32 5, [1], [2]⟩

/-- The calls that bring the transactions `txs` into an epoch of the node: insert them, propose, commit. -/
def blockOps (n : Node) (txs : List SignedTx) : List NodeOp :=
  let ins := txs.map (fun t => NodeOp.insertTx true true t)
  let pill := proposal (n.run ncfg ins)
  ins ++ [.propose 7 n.status.epochId, .commit .ok n.status.epochId pill (oproof n.status.epochId)]

/-- The node after such an epoch. -/
def block (n : Node) (txs : List SignedTx) : Node := n.run ncfg (blockOps n txs)

/-- The node after one epoch with a payment of 10 from user 1 to user 2. -/
def n1 : Node := block n0 [npay 1 2 10]

/-- The node after a second epoch with a payment of 5 back. -/
def n2 : Node := block n1 [npay 2 1 5 1]

theorem ninit_some : ninit.isSome = true := by decide +kernel

theorem nstart_some : nstart.isSome = true := by decide +kernel

theorem n0_start : ∃ s t, handleInit ncfg ngenesis Store.empty PMap.empty = some (s, t) ∧ startNode ncfg s t = some n0 := by
  have h := nstart_some
  unfold n0
  unfold nstart ninit at h ⊢
  cases hi : handleInit ncfg ngenesis Store.empty PMap.empty with
  | none => rw [hi] at h; simp at h
  | some x =>
    obtain ⟨s, t⟩ := x
    rw [hi] at h
    simp only [Option.bind_some] at h ⊢
    refine ⟨s, t, rfl, ?_⟩
    cases hs : startNode ncfg s t with
    | none => rw [hs] at h; simp at h
    | some n => rfl

theorem n0_lives (ok : Node → NodeOp → Prop) : Lives ncfg ngenesis ok n0 := by
  obtain ⟨s, t, h1, h2⟩ := n0_start
  exact .init h1 h2

theorem run_lives {cfg : NodeCfg} {g : Genesis} {ok : Node → NodeOp → Prop} (ops : List NodeOp) : ∀ {n : Node}, Lives cfg g ok n →
    (∀ pre op post, ops = pre ++ op :: post → ok (n.run cfg pre) op) → Lives cfg g ok (n.run cfg ops) := by
  induction ops with
  | nil => intro n h _; exact h
  | cons op ops ih =>
    intro n h hok
    have h1 : Lives cfg g ok (n.step cfg op) := .step op h (hok [] op ops rfl)
    exact ih h1 (fun pre o post he => hok (op :: pre) o post (by rw [he]; rfl))

example : n0.status.epochId = 1 ∧ n0.status.stateRoot = nroot ⟨fun a => if a = naddr 1 then some (.user ⟨0, [(token, ⟨100, []⟩)]⟩)
    else if a = naddr 2 then some (.user ⟨0, [(token, ⟨50, []⟩)]⟩) else none, PMap.empty⟩ := by decide +kernel

example : n1.log.length = 1 ∧ n1.status.epochId = 2 ∧ (n1.status.stateRoot.bytes.take 5 = [90, 60, 0, 0, 0]) := by decide +kernel

example : n2.log.length = 2 ∧ n2.status.epochId = 3 ∧ (n2.status.stateRoot.bytes.take 5 = [95, 55, 0, 0, 0]) := by decide +kernel

end Huobi.Demo
