import Verif.Model.Startup
import Verif.Props.Api
import Verif.Spec.DemoNode
/-
C92: a node starts with exactly what its configuration says, or not at all.  Refuted: contradictions between configuration and database,
bootstrap keys that are no keys, and the announced port.
-/
namespace Huobi

/-! ### Specification: how bytes are written in a configuration -/

/-- The character is the `n`-th hexadecimal digit, in lower or upper case. -/
def IsDigit (c : Char) (n : Nat) : Prop :=
  "0123456789abcdef".toList[n]? = some c ∨ "0123456789ABCDEF".toList[n]? = some c

/-- The text is the bytes, two hexadecimal digits each. -/
inductive HexText : Str → Bytes → Prop where
  | nil : HexText [] []
  | cons {c d : Char} {s : Str} {x : UInt8} {b : Bytes} : IsDigit c (x.toNat / 16) → IsDigit d (x.toNat % 16) → HexText s b →
      HexText (c :: d :: s) (x :: b)

/-- The text is the bytes in hexadecimal, with or without a leading `0x`. -/
def Written (s : Str) (b : Bytes) : Prop := ∃ t, (s = '0' :: 'x' :: t ∨ s = t) ∧ HexText t b

theorem isDigit_iff (c : Char) (n : Nat) : IsDigit c n ↔ hexVal c = some n := by
  constructor
  · intro h
    have hn : n < 16 := by
      rcases h with h | h <;> exact (List.getElem?_eq_some_iff.1 h).1
    have key : ∀ n : Fin 16, hexVal ("0123456789abcdef".toList[n.val]'(n.isLt)) = some n.val ∧
        hexVal ("0123456789ABCDEF".toList[n.val]'(n.isLt)) = some n.val := by decide
    rcases h with h | h
    · obtain ⟨h1, h2⟩ := List.getElem?_eq_some_iff.1 h
      rw [← h2]; exact (key ⟨n, hn⟩).1
    · obtain ⟨h1, h2⟩ := List.getElem?_eq_some_iff.1 h
      rw [← h2]; exact (key ⟨n, hn⟩).2
  · intro h
    have hc : ∀ k, c.toNat = k → c = Char.ofNat k := fun k hk => by rw [← hk, Char.ofNat_toNat]
    unfold hexVal at h
    simp only at h
    split at h
    · rename_i hr
      injection h with h
      have hn : n < 10 := by omega
      have : c = Char.ofNat (48 + n) := hc _ (by omega)
      rw [this]
      have key : ∀ n : Fin 10, IsDigit (Char.ofNat (48 + n.val)) n.val := by unfold IsDigit; decide
      exact key ⟨n, hn⟩
    · split at h
      · injection h with h
        have hn : n - 10 < 6 := by omega
        have : c = Char.ofNat (97 + (n - 10)) := hc _ (by omega)
        rw [this]
        have key : ∀ n : Fin 6, IsDigit (Char.ofNat (97 + n.val)) (n.val + 10) := by unfold IsDigit; decide
        have := key ⟨n - 10, hn⟩
        simpa [show n - 10 + 10 = n by omega] using this
      · split at h
        · injection h with h
          have hn : n - 10 < 6 := by omega
          have : c = Char.ofNat (65 + (n - 10)) := hc _ (by omega)
          rw [this]
          have key : ∀ n : Fin 6, IsDigit (Char.ofNat (65 + n.val)) (n.val + 10) := by unfold IsDigit; decide
          have := key ⟨n - 10, hn⟩
          simpa [show n - 10 + 10 = n by omega] using this
        · cases h

theorem hexDecode_iff (s : Str) (b : Bytes) : hexDecode s = some b ↔ HexText s b := by
  have key : ∀ (b : Bytes) (s : Str), s.map hexVal = (nibbles b).map some ↔ HexText s b := by
    intro b
    induction b with
    | nil =>
      intro s
      cases s with
      | nil => exact ⟨fun _ => .nil, fun _ => rfl⟩
      | cons c s => constructor <;> intro h <;> cases h
    | cons x b ih =>
      intro s
      constructor
      · intro h
        match s, h with
        | [], h => simp [nibbles] at h
        | [c], h => simp [nibbles] at h
        | c :: d :: s, h =>
          simp only [nibbles, List.flatMap_cons, List.cons_append, List.nil_append, List.map_cons, List.cons.injEq] at h
          exact .cons ((isDigit_iff _ _).2 h.1) ((isDigit_iff _ _).2 h.2.1) ((ih s).1 h.2.2)
      · intro h
        cases h with
        | cons h1 h2 h3 =>
          simp only [nibbles, List.flatMap_cons, List.cons_append, List.nil_append, List.map_cons, List.cons.injEq]
          exact ⟨(isDigit_iff _ _).1 h1, (isDigit_iff _ _).1 h2, (ih _).2 h3⟩
  exact ⟨fun h => (key b s).1 (hexDecode_some s b h), fun h => hexDecode_of_vals b s ((key b s).2 h)⟩

theorem written_iff (s : Str) (b : Bytes) : hexDecode (clean0x s) = some b ↔ Written s b := by
  rw [hexDecode_iff]
  unfold clean0x
  split
  · rename_i rest
    constructor
    · intro h; exact ⟨rest, .inl rfl, h⟩
    · rintro ⟨t, h | h, ht⟩
      · cases h; exact ht
      · subst h
        cases ht with
        | cons h1 h2 h3 =>
          have := (isDigit_iff _ _).1 h2
          exact absurd this (by simp [hexVal])
  · rename_i hne
    constructor
    · intro h; exact ⟨_, .inr rfl, h⟩
    · rintro ⟨t, h | h, ht⟩
      · exact absurd h (hne t)
      · subst h; exact ht

theorem hash_written (s : Str) (h : Hash) : Hash.fromHex s = some h ↔ Written s h.bytes := by
  unfold Hash.fromHex
  rw [Option.bind_eq_some_iff]
  constructor
  · rintro ⟨b, h1, h2⟩
    rw [C49_bytes_round_trip.2.1 b h h2]; exact (written_iff s b).1 h1
  · intro hw; exact ⟨_, (written_iff s _).2 hw, Hash.fromBytes_bytes h⟩

theorem user_written (s : Str) (a : UserAddress) : UserAddress.fromHex s = some a ↔ Written s a.toBytes := by
  unfold UserAddress.fromHex
  rw [Option.bind_eq_some_iff]
  constructor
  · rintro ⟨b, h1, h2⟩
    rw [C49_bytes_round_trip.2.2.2.1 b a h2]; exact (written_iff s b).1 h1
  · intro hw; exact ⟨_, (written_iff s _).2 hw, UserAddress.fromBytes_toBytes a⟩

/-! ### The parts of the configuration -/

theorem parseBootstraps_some {digest : Bytes → Hash} : ∀ {xs : List (Str × SocketAddr)} {ps : List BootPeer},
    parseBootstraps digest xs = some ps → ps.length = xs.length ∧
      ∀ (i : Nat) (x : Str × SocketAddr) (p : BootPeer), xs[i]? = some x → ps[i]? = some p →
        HexText x.1 p.key ∧ p.user = UserAddress.fromPubkey digest p.key ∧ p.addr = [x.2.ip.proto, .tcp x.2.port]
  | [], ps, h => by cases h; exact ⟨rfl, fun i x p hx => by simp at hx⟩
  | x :: xs, ps, h => by
    rw [parseBootstraps] at h
    cases hp : toPeer digest x with
    | none => rw [hp] at h; cases h
    | some p =>
      rw [hp] at h
      cases hr : parseBootstraps digest xs with
      | none => rw [hr] at h; cases h
      | some qs =>
        rw [hr] at h
        cases h
        obtain ⟨h1, h2⟩ := parseBootstraps_some hr
        refine ⟨by simp [h1], ?_⟩
        intro i y q hy hq
        cases i with
        | zero =>
          simp only [List.getElem?_cons_zero, Option.some.injEq] at hy hq
          subst hy hq
          unfold toPeer at hp
          rw [Option.map_eq_some_iff] at hp
          obtain ⟨key, hk, rfl⟩ := hp
          exact ⟨(hexDecode_iff _ _).1 hk, rfl, rfl⟩
        | succ i =>
          simp only [List.getElem?_cons_succ] at hy hq
          exact h2 i y q hy hq

theorem parseBootstraps_isSome {digest : Bytes → Hash} : ∀ {xs : List (Str × SocketAddr)},
    (parseBootstraps digest xs).isSome ↔ ∀ x ∈ xs, ∃ key, HexText x.1 key
  | [] => by simp [parseBootstraps]
  | x :: xs => by
    have ih := parseBootstraps_isSome (digest := digest) (xs := xs)
    rw [parseBootstraps]
    cases hp : toPeer digest x with
    | none =>
      have : hexDecode x.1 = none := by
        unfold toPeer at hp; simpa using hp
      simp only [Option.isSome_none, Bool.false_eq_true, false_iff]
      intro h
      obtain ⟨key, hk⟩ := h x (by simp)
      rw [(hexDecode_iff _ _).2 hk] at this
      cases this
    | some p =>
      have hk : ∃ key, HexText x.1 key := by
        unfold toPeer at hp
        rw [Option.map_eq_some_iff] at hp
        obtain ⟨key, hk, rfl⟩ := hp
        exact ⟨key, (hexDecode_iff _ _).1 hk⟩
      cases hr : parseBootstraps digest xs with
      | none =>
        rw [hr] at ih
        simp only [Option.isSome_none, Bool.false_eq_true, false_iff] at ih ⊢
        exact fun h => ih (fun y hy => h y (by simp [hy]))
      | some qs =>
        rw [hr] at ih
        simp only [Option.isSome_some, true_iff] at ih ⊢
        intro y hy
        rcases List.mem_cons.1 hy with rfl | hy
        · exact hk
        · exact ih y hy

theorem parseVerifiers_some : ∀ {xs : List Str} {vs : List Validator}, parseVerifiers xs = some vs →
    vs.length = xs.length ∧ ∀ (i : Nat) (x : Str) (v : Validator), xs[i]? = some x → vs[i]? = some v →
      Written x v.address.toBytes ∧ v.proposeWeight = 1 ∧ v.voteWeight = 1
  | [], vs, h => by cases h; exact ⟨rfl, fun i x p hx => by simp at hx⟩
  | x :: xs, vs, h => by
    rw [parseVerifiers] at h
    cases hp : UserAddress.fromHex x with
    | none => rw [hp] at h; cases h
    | some a =>
      rw [hp] at h
      cases hr : parseVerifiers xs with
      | none => rw [hr] at h; cases h
      | some ws =>
        rw [hr] at h
        cases h
        obtain ⟨h1, h2⟩ := parseVerifiers_some hr
        refine ⟨by simp [h1], ?_⟩
        intro i y q hy hq
        cases i with
        | zero =>
          simp only [List.getElem?_cons_zero, Option.some.injEq] at hy hq
          subst hy hq
          exact ⟨(user_written _ _).1 hp, rfl, rfl⟩
        | succ i =>
          simp only [List.getElem?_cons_succ] at hy hq
          exact h2 i y q hy hq

theorem parseVerifiers_isSome : ∀ {xs : List Str}, (parseVerifiers xs).isSome ↔ ∀ x ∈ xs, ∃ a : UserAddress, Written x a.toBytes
  | [] => by simp [parseVerifiers]
  | x :: xs => by
    have ih := parseVerifiers_isSome (xs := xs)
    rw [parseVerifiers]
    cases hp : UserAddress.fromHex x with
    | none =>
      simp only [Option.isSome_none, Bool.false_eq_true, false_iff]
      intro h
      obtain ⟨a, ha⟩ := h x (by simp)
      rw [(user_written _ _).2 ha] at hp
      cases hp
    | some a =>
      have hk := (user_written _ _).1 hp
      cases hr : parseVerifiers xs with
      | none =>
        rw [hr] at ih
        simp only [Option.isSome_none, Bool.false_eq_true, false_iff] at ih ⊢
        exact fun h => ih (fun y hy => h y (by simp [hy]))
      | some qs =>
        rw [hr] at ih
        simp only [Option.isSome_some, true_iff] at ih ⊢
        intro y hy
        rcases List.mem_cons.1 hy with rfl | hy
        · exact ⟨a, hk⟩
        · exact ih y hy

/-! ### C92 -/

/-- The started node is the one the configuration file describes. -/
structure AsWritten (fx : Fixed) (w : World0) (f : FileCfg) (st : Started) : Prop where
  chainId : Written f.chainId st.cfg.chainId.bytes
  /-- the private key is used by the consensus and by the network, and the node's address is that of its public key -/
  key : ∃ pk, HexText f.privkey st.net.keypair ∧ w.pubOf st.net.keypair = some pk ∧ st.cfg.selfAddress = UserAddress.fromPubkey fx.digest pk
  validatorCount : st.cfg.validators.length = f.verifiers.length
  validators : ∀ (i : Nat) (x : Str) (v : Validator), f.verifiers[i]? = some x → st.cfg.validators[i]? = some v →
    Written x v.address.toBytes ∧ v.proposeWeight = 1 ∧ v.voteWeight = 1
  peerCount : st.net.bootstraps.length = (f.bootstraps.getD []).length
  peers : ∀ (i : Nat) (x : Str × SocketAddr) (p : BootPeer), (f.bootstraps.getD [])[i]? = some x → st.net.bootstraps[i]? = some p →
    HexText x.1 p.key ∧ p.user = UserAddress.fromPubkey fx.digest p.key ∧ p.addr = [x.2.ip.proto, .tcp x.2.port]
  /-- it listens where it is told to, and tells its peers that address -/
  listens : st.net.bound.isSome ∧ w.bind [f.listening.ip.proto, .tcp f.listening.port] = st.net.bound
  announces : st.net.announced = some [f.listening.ip.proto, .tcp f.listening.port]
  numbers : st.cfg.cyclesLimit = f.cyclesLimit ∧ st.cfg.cyclesPrice = f.cyclesPrice ∧ st.cfg.interval = f.interval ∧
    st.cfg.poolSize = f.poolSize.toNat ∧ st.cfg.timeoutGap = f.timeoutGap
  status : st.node.status.cyclesLimit = f.cyclesLimit ∧ st.node.status.cyclesPrice = f.cyclesPrice ∧
    st.node.status.validators = st.cfg.validators ∧ st.node.pool = MemPool.new f.poolSize.toNat f.timeoutGap

theorem parseIdentity_ok {fx : Fixed} {w : World0} {f : FileCfg} {c : Hash} {sk : Bytes} {a : UserAddress}
    (h : parseIdentity fx w f = .ok (c, sk, a)) :
    Written f.chainId c.bytes ∧ HexText f.privkey sk ∧ ∃ pk, w.pubOf sk = some pk ∧ a = UserAddress.fromPubkey fx.digest pk := by
  unfold parseIdentity at h
  split at h
  · cases h
  · rename_i c' hc
    split at h
    · cases h
    · rename_i sk' hsk
      split at h
      · cases h
      · rename_i pk hpk
        cases h
        exact ⟨(hash_written _ _).1 hc, (hexDecode_iff _ _).1 hsk, pk, hpk, rfl⟩

theorem startAll_ok {fx : Fixed} {w : World0} {f : FileCfg} {s : Store} {t : StateDB} {st : Started} (h : startAll fx w f s t = .ok st) :
    ∃ c sk a peers real vs, parseIdentity fx w f = .ok (c, sk, a) ∧ parseBootstraps fx.digest (f.bootstraps.getD []) = some peers ∧
      w.bind (socketToMulti f.listening) = some real ∧ parseVerifiers f.verifiers = some vs ∧ st.cfg = f.node fx c a vs ∧
      startNode st.cfg s t = some st.node ∧ st.net = ⟨sk, peers, some real, some (socketToMulti f.listening)⟩ := by
  unfold startAll at h
  split at h
  · cases h
  · rename_i c sk a hid
    split at h
    · cases h
    · rename_i peers hp
      unfold NetStart.listen at h
      simp only at h
      cases hb : w.bind (socketToMulti f.listening) with
      | none => simp only [hb] at h; cases h
      | some real =>
        simp only [hb] at h
        split at h
        · cases h
        · split at h
          · cases h
          · rename_i vs hvs
            simp only [NetStart.run, Option.getD_some] at h
            split at h
            · rename_i n net' hn hnet
              cases h
              cases hnet
              exact ⟨c, sk, a, peers, real, vs, hid, hp, rfl, hvs, rfl, hn, rfl⟩
            · cases h

/-- **C92, part.**  A node that starts is the one its configuration describes, whatever the configuration, the genesis file and the
contents of the databases. -/
theorem C92_as_configured_partial {fx : Fixed} {w : World0} {f : FileCfg} {g : Genesis} {s : Store} {t : StateDB} {st : Started}
    (h : (boot fx w f g s t).1 = .ok st) : AsWritten fx w f st := by
  unfold boot at h
  split at h
  · cases h
  · split at h
    · cases h
    · obtain ⟨c, sk, a, peers, real, vs, hid, hp, hb, hvs, hcfg, hn, hnet⟩ := startAll_ok h
      obtain ⟨h1, h2, pk, h3, h4⟩ := parseIdentity_ok hid
      obtain ⟨e, _, _, _, hst, _, _, hpool⟩ := startNode_some hn
      have hv := parseVerifiers_some hvs
      have hps := parseBootstraps_some hp
      constructor
      · rw [hcfg]; exact h1
      · exact ⟨pk, by rw [hnet]; exact h2, by rw [hnet]; exact h3, by rw [hcfg]; exact h4⟩
      · rw [hcfg]; exact hv.1
      · rw [hcfg]; exact hv.2
      · rw [hnet]; exact hps.1
      · rw [hnet]; exact hps.2
      · rw [hnet]; exact ⟨rfl, hb⟩
      · rw [hnet]; rfl
      · rw [hcfg]; exact ⟨rfl, rfl, rfl, rfl, rfl⟩
      · rw [hst, hpool, hcfg]; exact ⟨rfl, rfl, rfl, rfl⟩

/-- **C92: what makes a configuration usable.**  A node with a database starts if and only if the chain id, the keys of the bootstrap peers and
the validators are written correctly, its private key is one, and it can listen where it is told to. -/
theorem C92_starts_iff {fx : Fixed} {w : World0} {f : FileCfg} {g : Genesis} {s : Store} {t : StateDB} {e : Epoch} (he : s.latest = some e) :
    (∃ st, (boot fx w f g s t).1 = .ok st) ↔
      (∃ c : Hash, Written f.chainId c.bytes) ∧ (∃ sk pk, HexText f.privkey sk ∧ w.pubOf sk = some pk) ∧
      (∀ x ∈ f.bootstraps.getD [], ∃ key, HexText x.1 key) ∧ (∀ v ∈ f.verifiers, ∃ a : UserAddress, Written v a.toBytes) ∧
      (w.bind [f.listening.ip.proto, .tcp f.listening.port]).isSome := by
  constructor
  · rintro ⟨st, h⟩
    unfold boot at h
    split at h
    · cases h
    · split at h
      · cases h
      · obtain ⟨c, sk, a, peers, real, vs, hid, hp, hb, hvs, hcfg, hn, hnet⟩ := startAll_ok h
        obtain ⟨h1, h2, pk, h3, h4⟩ := parseIdentity_ok hid
        exact ⟨⟨c, h1⟩, ⟨sk, pk, h2, h3⟩, parseBootstraps_isSome.1 (by rw [hp]; rfl), parseVerifiers_isSome.1 (by rw [hvs]; rfl), by
          rw [show [f.listening.ip.proto, .tcp f.listening.port] = socketToMulti f.listening from rfl, hb]; rfl⟩
  · rintro ⟨⟨c, hc⟩, ⟨sk, pk, hsk, hpk⟩, hb, hv, hl⟩
    obtain ⟨peers, hp⟩ := Option.isSome_iff_exists.1 (parseBootstraps_isSome (digest := fx.digest).2 hb)
    obtain ⟨vs, hvs⟩ := Option.isSome_iff_exists.1 (parseVerifiers_isSome.2 hv)
    obtain ⟨real, hr⟩ := Option.isSome_iff_exists.1 hl
    have hid : parseIdentity fx w f = .ok (c, sk, UserAddress.fromPubkey fx.digest pk) := by
      unfold parseIdentity
      rw [(hash_written _ _).2 hc]
      simp only [(hexDecode_iff _ _).2 hsk, hpk]
    change w.bind (socketToMulti f.listening) = some real at hr
    refine ⟨⟨f.node fx c (UserAddress.fromPubkey fx.digest pk) vs,
      { store := s, tries := t, pool := MemPool.new f.poolSize.toNat f.timeoutGap
        status := startStatus (f.node fx c (UserAddress.fromPubkey fx.digest pk) vs) e, exempt := [], log := [] },
      ⟨sk, peers, some real, some (socketToMulti f.listening)⟩⟩, ?_⟩
    simp only [boot, hid, handleInit, he, startAll, hp, NetStart.listen, hr, hvs, startNode, NetStart.run, Option.getD_some]
    rfl

/-- **C92.**  Once there is a chain, the genesis file has no effect. -/
theorem C92_genesis_file_ignored {fx : Fixed} {w : World0} {f : FileCfg} {s : Store} {t : StateDB} {e : Epoch} (he : s.latest = some e)
    (g g' : Genesis) : boot fx w f g s t = boot fx w f g' s t := by
  simp only [boot, handleInit, he]

/-- An address on which the transport listens exactly as told. -/
def World0.Exact (w : World0) (a : SocketAddr) : Prop :=
  ∀ real, w.bind [a.ip.proto, .tcp a.port] = some real → real = [a.ip.proto, .tcp a.port]

/-- **C92, part.**  If the transport listens exactly where it is told to, the address that peers are told is the one the node listens
on; it leads back to the configured host. -/
theorem C92_announced_partial {fx : Fixed} {w : World0} {f : FileCfg} {g : Genesis} {s : Store} {t : StateDB} {st : Started}
    (h : (boot fx w f g s t).1 = .ok st) (hw : w.Exact f.listening) :
    st.net.announced = st.net.bound ∧ st.net.announced.bind multiIp = some f.listening.ip := by
  have ha := C92_as_configured_partial h
  obtain ⟨real, hr⟩ := Option.isSome_iff_exists.1 ha.listens.1
  have hb := ha.listens.2
  rw [hr] at hb
  refine ⟨by rw [ha.announces, hr, hw real hb], ?_⟩
  rw [ha.announces]
  cases f.listening <;> rfl

/-- Addresses of different hosts or ports stay different; what gets lost is the scope of a version 6 address. -/
theorem C92_addr_faithful (a b : SocketAddr) : socketToMulti a = socketToMulti b ↔ a.ip = b.ip ∧ a.port = b.port := by
  unfold socketToMulti
  cases a <;> cases b <;> simp [SocketAddr.ip, SocketAddr.port, IpAddr.proto]

/-- **C92.**  Further calls of `listen` change nothing; without any call the service listens on, and announces, the default address. -/
theorem C92_listen_once (w : World0) (s : NetStart) (a : SocketAddr) :
    (s.bound.isSome → NetStart.listen w s a = (true, s)) ∧
    (s.bound = none → s.announced = none → ∀ s', s.run w = some s' →
      s'.announced = some [.ip4 [0, 0, 0, 0], .tcp 2337] ∧ s'.bound = w.bind [.ip4 [0, 0, 0, 0], .tcp 2337] ∧ s'.bound.isSome) := by
  constructor
  · intro h
    obtain ⟨x, hx⟩ := Option.isSome_iff_exists.1 h
    simp only [NetStart.listen, hx]
  · intro h1 h2 s' hs
    simp only [NetStart.run, h1, h2, Option.getD_none] at hs
    split at hs
    · cases hs
    · rename_i real hr
      cases hs
      exact ⟨rfl, hr.symm, rfl⟩

/-- The registrations of the node are accepted, and give the table that routes its messages. -/
theorem C92_registers : registerAll.toOption = some mainReactors := by decide +kernel

/-- A handler cannot be registered for answers, nor an answer type for anything else. -/
theorem C92_register_kinds (rs : Reactors Handler) (url : Str) (h : Handler) (e : Endpoint) (he : Endpoint.parse url = .ok e) :
    ((registerHandler rs url h).isOk ↔ e.scheme ≠ some .rpcResp) ∧ ((registerResponse rs url h).isOk ↔ e.scheme = some .rpcResp) := by
  unfold registerHandler registerResponse
  simp only [he]
  by_cases hs : e.scheme = some .rpcResp <;> simp [hs, Except.isOk, Except.toBool]

/-! ### Refutations -/

namespace Demo

/-- Hash function, roots and Merkle layout of the examples. -/
def fixed : Fixed := ⟨mix, nroot, fun _ => "error", fun _ _ _ => true, heapLayout⟩

/-- A world in which the secret keys are the two byte strings `[n, 0]`, with public key `[n]`; the transport replaces port 0 by another
one. -/
def world0 : World0 where
  pubOf := fun b => match b with
    | [n, 0] => some [n]
    | _ => none
  bind := fun a => match a with
    | [h, .tcp p] => some [h, .tcp (if p = 0 then 40000 else p)]
    | _ => none

/-- The configuration file of the examples, with chain id `09..` (`0a..`: another chain). -/
def file (chain : String) (port : UInt16) : FileCfg :=
  { chainId := (chain ++ "00000000000000000000000000000000000000000000000000000000000000").toList, privkey := "6300".toList
    bootstraps := some [("07".toList, .v4 [127, 0, 0, 1] 1337), ("Ff08".toList, .v6 (List.replicate 16 1) 1338 5 6)]
    listening := .v4 [10, 0, 0, 1] port, timeoutGap := 20, poolSize := 100, cyclesLimit := 1000000, cyclesPrice := 0, interval := 1
    verifiers := ["0x100907000000000000000000000000000000000000".toList, "100a07000000000000000000000000000000000000".toList] }

/-- The databases after the first start with a configuration. -/
def firstData (f : FileCfg) : Store × StateDB := (boot fixed world0 f ngenesis Store.empty PMap.empty).2

theorem ok_of_isSome {ε α : Type} {x : Except ε α} (h : x.toOption.isSome = true) : ∃ a, x = .ok a := by
  cases x with
  | error e => cases h
  | ok a => exact ⟨a, rfl⟩

theorem file_starts : ∃ st, (boot fixed world0 (file "09" 1337) ngenesis Store.empty PMap.empty).1 = .ok st :=
  ok_of_isSome (by decide +kernel)

end Demo

/-- The hypotheses of `C92_as_configured_partial` and `C92_announced_partial` are met, from an empty database: two bootstrap peers, two
validators. -/
example : ∃ st, (boot Demo.fixed Demo.world0 (Demo.file "09" 1337) Demo.ngenesis Store.empty PMap.empty).1 = .ok st ∧
    AsWritten Demo.fixed Demo.world0 (Demo.file "09" 1337) st ∧ Demo.world0.Exact (Demo.file "09" 1337).listening := by
  obtain ⟨st, h⟩ := Demo.file_starts
  refine ⟨st, h, C92_as_configured_partial h, ?_⟩
  intro real hr
  have : Demo.world0.bind [(Demo.file "09" 1337).listening.ip.proto, .tcp (Demo.file "09" 1337).listening.port] =
    some [(Demo.file "09" 1337).listening.ip.proto, .tcp (Demo.file "09" 1337).listening.port] := by decide
  rw [this] at hr
  exact (Option.some.inj hr).symm

/-- A bad configuration: each of these aborts. -/
example : (boot Demo.fixed Demo.world0 (Demo.file "0" 1) Demo.ngenesis Store.empty PMap.empty).1.toOption.isNone ∧
    (boot Demo.fixed Demo.world0 { Demo.file "09" 1 with privkey := "6301".toList } Demo.ngenesis Store.empty PMap.empty).1.toOption.isNone ∧
    (boot Demo.fixed Demo.world0 { Demo.file "09" 1 with bootstraps := some [("7".toList, .v4 [] 1)] } Demo.ngenesis Store.empty
      PMap.empty).1.toOption.isNone ∧
    (boot Demo.fixed Demo.world0 { Demo.file "09" 1 with verifiers := ["20".toList] } Demo.ngenesis Store.empty PMap.empty).1.toOption.isNone
    := by decide +kernel

/-- There is a chain after the first start: the hypothesis of `C92_starts_iff` and `C92_genesis_file_ignored`. -/
example : (Demo.firstData (Demo.file "09" 1337)).1.latest.isSome := by decide +kernel

/-- **C92 as stated is false: the chain id.**  A node whose database holds the chain of one id starts with the configuration of another
one, and proposes an epoch of the other chain on top of it. -/
theorem C92_chain_id_refuted : ¬ ∀ (fx : Fixed) (w : World0) (f f' : FileCfg) (g : Genesis) (st : Started) (now : UInt64) (pill : Pill)
    (hash : Bytes) (e : Epoch),
    (boot fx w f' g (boot fx w f g Store.empty PMap.empty).2.1 (boot fx w f g Store.empty PMap.empty).2.2).1 = .ok st →
    (boot fx w f g Store.empty PMap.empty).2.1.latest = some e →
    (st.node.getEpoch st.cfg now st.node.status.epochId).1 = .ok (pill, hash) → pill.epoch.header.preHash = fx.digest (encode e) →
    pill.epoch.header.chainId = e.header.chainId := by
  intro hall
  let r : Option (Bool) := do
    let d := Demo.firstData (Demo.file "09" 1337)
    let st ← (boot Demo.fixed Demo.world0 (Demo.file "0a" 1337) Demo.ngenesis d.1 d.2).1.toOption
    let e ← d.1.latest
    let x ← (st.node.getEpoch st.cfg 7 st.node.status.epochId).1.toOption
    pure (decide (x.1.epoch.header.preHash = Demo.fixed.digest (encode e)) && decide (x.1.epoch.header.chainId ≠ e.header.chainId))
  have hr : r = some true := by decide +kernel
  simp only [r, Option.bind_eq_bind, Option.bind_eq_some_iff, Option.pure_def, Option.some.injEq, Bool.and_eq_true, decide_eq_true_eq] at hr
  obtain ⟨st, h1, e, h2, x, h3, h4, h5⟩ := hr
  have toOk : ∀ {ε α : Type} {y : Except ε α} {a : α}, y.toOption = some a → y = .ok a := by
    intro ε α y a h
    cases y with
    | error _ => cases h
    | ok b => cases h; rfl
  exact h5 (hall Demo.fixed Demo.world0 (Demo.file "09" 1337) (Demo.file "0a" 1337) Demo.ngenesis st 7 x.1 x.2 e (toOk h1) h2 (toOk h3) h4)

/-- **C92 as stated is false: bootstrap keys.**  A bootstrap peer whose key is the public key of nobody is accepted; the node waits for a
peer that cannot exist. -/
theorem C92_bootstrap_key_refuted : ¬ ∀ (fx : Fixed) (w : World0) (f : FileCfg) (g : Genesis) (s : Store) (t : StateDB) (st : Started),
    (boot fx w f g s t).1 = .ok st → ∀ p ∈ st.net.bootstraps, ∃ sk, w.pubOf sk = some p.key := by
  intro hall
  obtain ⟨st, h⟩ := Demo.file_starts
  have hw := C92_as_configured_partial h
  have hlen : st.net.bootstraps.length = 2 := hw.peerCount
  have hp : st.net.bootstraps[1]? = some (st.net.bootstraps[1]'(by omega)) := List.getElem?_eq_getElem (by omega)
  generalize st.net.bootstraps[1]'(by omega) = p at hp
  have hk := (hw.peers 1 ("Ff08".toList, .v6 (List.replicate 16 1) 1338 5 6) p (by decide) hp).1
  have hkey : hexDecode "Ff08".toList = some p.key := (hexDecode_iff _ _).2 hk
  have h255 : hexDecode "Ff08".toList = some [255, 8] := by decide
  rw [h255] at hkey
  obtain ⟨sk, hsk⟩ := hall _ _ _ _ _ _ st h p (List.mem_of_getElem? hp)
  rw [← Option.some.inj hkey] at hsk
  unfold Demo.world0 at hsk
  simp only at hsk
  split at hsk <;> cases hsk

/-- **C92 as stated is false: the announced address.**  Told to listen on port 0, the node listens on a port of the system's choice and tells
its peers port 0. -/
theorem C92_port_refuted : ¬ ∀ (fx : Fixed) (w : World0) (f : FileCfg) (g : Genesis) (s : Store) (t : StateDB) (st : Started),
    (boot fx w f g s t).1 = .ok st → st.net.announced = st.net.bound := by
  intro hall
  obtain ⟨st, h⟩ := Demo.ok_of_isSome (x := (boot Demo.fixed Demo.world0 (Demo.file "09" 0) Demo.ngenesis Store.empty PMap.empty).1)
    (by decide +kernel)
  have h1 := hall _ _ _ _ _ _ st h
  have hw := C92_as_configured_partial h
  rw [hw.announces, ← hw.listens.2] at h1
  exact absurd h1 (by decide)

end Huobi
