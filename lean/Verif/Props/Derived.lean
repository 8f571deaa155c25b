import Verif.Props.Api
import Verif.Props.Startup
import Verif.Props.PeerManager3
/-
Statements that name the constants of the code: derived addresses (C49), the number of failures (C74), the address that is announced (C92).
-/
namespace Huobi
theorem hexEncode_take (n : Nat) : ∀ b : Bytes, (hexEncode b).take (2 * n) = hexEncode (b.take n) := by
  induction n with
  | zero => intro b; simp [hexEncode]
  | succ n ih =>
    intro b
    cases b with
    | nil => simp [hexEncode]
    | cons x b =>
      rw [Nat.mul_succ]
      simp [hexEncode, ih b]

/-- **C49, derived addresses.**  The address of a public key is 0x10 and the first 20 bytes of its hash - also by the way the code takes, through text - and
the address of a contract is the byte of its type and the first 20 bytes of the hash of its code and the 8 bytes of the nonce. -/
theorem C49_derived (digest : Bytes → Hash) :
    (∀ key : Bytes, (UserAddress.fromPubkey digest key).toBytes = 0x10 :: (digest key).bytes.take 20) ∧
    (∀ key : Bytes, (hexDecode ('1' :: '0' :: (hexEncode (digest key).bytes).take 40)).bind UserAddress.fromBytes = some (UserAddress.fromPubkey digest key)) ∧
    (∀ (code : Bytes) (nonce : UInt64) (ty : ContractType), ∃ n8 : Bytes, n8.length = 8 ∧ natOfBE n8 = nonce.toNat ∧
      (ContractAddress.fromCode digest code nonce ty).toBytes =
        (match ty with | .asset => 0x20 | .app => 0x21 | .library => 0x22 | .native => 0x23) :: (digest (code ++ n8)).bytes.take 20) := by
  refine ⟨fun _ => rfl, fun key => ?_, fun code nonce ty => ⟨u64BE nonce, rfl, ?_, ?_⟩⟩
  · rw [show (40 : Nat) = 2 * 20 from rfl, hexEncode_take]
    have h : hexDecode ('1' :: '0' :: hexEncode ((digest key).bytes.take 20)) = some (0x10 :: (digest key).bytes.take 20) := by
      have := hexDecode_hexEncode (0x10 :: (digest key).bytes.take 20)
      exact this
    rw [h]
    exact UserAddress.fromBytes_toBytes (UserAddress.fromPubkey digest key)
  · exact natOfBE_u64BE nonce
  · cases ty <;> rfl
/-- **C92, the announced address.**  It has the octets and the port of the socket address. -/
theorem C92_multiaddr (ip : Bytes) (port : UInt16) (flow scope : UInt32) :
    socketToMulti (.v4 ip port) = [.ip4 ip, .tcp port] ∧ socketToMulti (.v6 ip port flow scope) = [.ip6 ip, .tcp port] := ⟨rfl, rfl⟩

namespace PM

/-- **C74, exactly six.**  A failure four seconds or more after the last one that counted counts: after it the peer is known if and only if this was not yet
the sixth one, and then one more is counted. -/
theorem C74_exactly_six {cfg : PMCfg} {pid : Pid} (hb : isBootstrap cfg pid = false) (now : Clock) {s : PM} {e : PMEvent} (hf : IsFailure s now pid e) {p : Peer}
    (hp : s.pool pid = some p) (hgap : p.attemptAt + 4 ≤ now.secs) :
    ((s.step cfg now e).1.pool pid = none ↔ 6 ≤ p.retry + 1) ∧
    ∀ q, (s.step cfg now e).1.pool pid = some q → q.retry = p.retry + 1 ∧ q.attemptAt = now.secs ∧ q.nextRetry = now.tick + 5 ^ (p.retry + 1) := by
  have hinc : p.increaseRetry now = { p with retry := p.retry + 1, attemptAt := now.secs, nextRetry := now.tick + 5 ^ (p.retry + 1) } := by
    unfold Peer.increaseRetry
    rw [if_neg]
    · rfl
    · unfold secsBetween validAttemptInterval
      omega
  rcases failure_counted hb now s e hf p hp with ⟨q, hq, h1, h2, h3, h4⟩ | ⟨hq, h1⟩
  · rw [hinc] at h1 h2 h3 h4
    rw [hq]
    refine ⟨⟨(fun h => by cases h), fun h => absurd h1 (by simp only [maxRetryCount]; omega)⟩, fun q' hq' => ?_⟩
    injection hq' with hq'
    subst hq'
    exact ⟨h2, h3, h4⟩
  · rw [hinc] at h1
    rw [hq]
    exact ⟨⟨fun _ => h1, fun _ => rfl⟩, fun q' hq' => by cases hq'⟩

/-- C74_exactly_six on real cases: the fifth and the sixth of six failures ten seconds apart of a peer that came by a session. -/
example : ∃ s p, PM.Reach demoCfg (fun _ _ _ => True) s ∧ isBootstrap demoCfg 12 = false ∧ IsFailure s ⟨70, 70⟩ 12 (.retryLater 12) ∧ s.pool 12 = some p ∧
    p.retry = 5 ∧ p.attemptAt + 4 ≤ 70 := by
  refine ⟨_, ⟨12, 102, 2, [], 5, 60 + 5 ^ 5, 10, 60, 0⟩, .step ⟨60, 60⟩ (.retryLater 12) (.step ⟨50, 50⟩ (.retryLater 12) (.step ⟨40, 40⟩ (.retryLater 12)
    (.step ⟨30, 30⟩ (.retryLater 12) (.step ⟨20, 20⟩ (.retryLater 12) (.step ⟨10, 10⟩ (.attach 2 7 [] false) (.start ⟨0, 0⟩ []) trivial) trivial) trivial)
    trivial) trivial) trivial, by decide +kernel, rfl, ?_, rfl, ?_⟩
  · decide +kernel
  · decide +kernel

end PM
end Huobi
