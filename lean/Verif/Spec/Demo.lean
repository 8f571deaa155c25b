import Verif.Spec.Executor
/-
A small concrete environment and world, used to show that the hypotheses of theorems are met by non-trivial cases
and as the witness of refutations.
-/
namespace Huobi.Demo

/-- A hash for examples: the last 32 bytes, reversed, padded with zeros. -/
def digest (b : Bytes) : Hash :=
  ⟨(b.reverse ++ List.replicate 32 0).take 32, by simp [List.length_take]⟩

def hash (n : UInt8) : Hash := digest [n]

/-- Environment of the examples. -/
def env : Env :=
  { digest := digest
    rootOf := fun w => if (w.assets (hash 7)).isSome then hash 1 else hash 2
    showErr := fun _ => "error"
    chainId := hash 9
    epochId := 3
    cyclesPrice := 2
    coinbase := .user (UserAddress.fromPubkey digest [99]) }

def addr (n : UInt8) : Address := .user (UserAddress.fromPubkey digest [n])
def user (n : UInt8) : UserAddress := UserAddress.fromPubkey digest [n]

/-- The asset of the examples. -/
def gold : AssetID := hash 7

def goldAsset : Asset :=
  { id := gold, name := "Gold", symbol := "G", supply := 1000,
    manageContract := ContractAddress.fromCode digest [] 0 .asset, storageRoot := hash 0 }

/-- Users 1, 2, 3 hold 100, 50, 0 gold; nobody else has an account. -/
def world : World :=
  { accounts := fun a =>
      if a = addr 1 then some (.user ⟨5, [(gold, ⟨100, []⟩)]⟩)
      else if a = addr 2 then some (.user ⟨0, [(gold, ⟨50, []⟩)]⟩)
      else if a = addr 3 then some (.user ⟨0, []⟩)
      else none
    assets := fun i => if i = gold then some goldAsset else none }

/-- A transaction of user `n` with the given action and cycle limit. -/
def tx (n : UInt8) (act : Action) (limit : UInt64 := 10000) : SignedTx :=
  { raw := { chainId := hash 9, nonce := hash n, timeout := 10, fee := ⟨gold, limit⟩, action := act }
    txHash := hash n, pubkey := [n], signature := [] }

def pay (s r : UInt8) (n : Nat) (limit : UInt64 := 10000) : SignedTx := tx s (.transfer (user r) ⟨gold, n⟩) limit

theorem world_typed : world.WellTyped := by
  intro u acc h
  simp only [world] at h
  split at h
  · exact ⟨_, by simpa using h.symm⟩
  · split at h
    · exact ⟨_, by simpa using h.symm⟩
    · split at h
      · exact ⟨_, by simpa using h.symm⟩
      · simp at h

/-- The outcome of a block on a world: results and the committed world, if the execution succeeds. -/
def outcome (txs : List SignedTx) (e : Env := env) (w : World := world) : Option (ExecResp × World) :=
  match exec e txs (St.open w) with
  | (.ok r, s) => some (r, s.committed)
  | _ => none

theorem executes_of_outcome {txs : List SignedTx} {e : Env} {w : World} {x : ExecResp × World}
    (h : outcome txs e w = some x) : Executes e w txs x.1 x.2 := by
  unfold outcome at h
  unfold Executes
  generalize exec e txs (St.open w) = y at h ⊢
  obtain ⟨a, b⟩ := y
  cases a with
  | error f => simp at h
  | ok r => simp only [Option.some.injEq] at h; subst h; exact ⟨rfl, rfl⟩

theorem exists_executes {txs : List SignedTx} {e : Env} {w : World} (h : (outcome txs e w).isSome = true) :
    ∃ x, outcome txs e w = some x ∧ Executes e w txs x.1 x.2 := by
  obtain ⟨x, hx⟩ := Option.isSome_iff_exists.1 h
  exact ⟨x, hx, executes_of_outcome hx⟩

end Huobi.Demo
