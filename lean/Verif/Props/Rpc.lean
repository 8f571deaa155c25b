import Verif.Model.Rpc
import Verif.Props.Endpoint
/-
C53 and C66: remote calls, with any interleaving of calls, responses and other messages.
-/
namespace Huobi
variable {α : Type}

/-- What holds at all times, as long as fewer than 2^64 ids were drawn. -/
structure RpcInv (cfg : RpcCfg α) (evs : List RpcEvent) (s : RpcState α) : Prop where
  ix : ∀ c x, s.calls c = some x → x.ix < s.next
  uniq : ∀ c c' x x', s.calls c = some x → s.calls c' = some x' → x.ix = x'.ix → c = c'
  entry : ∀ k b, s.map k = some b → ∃ x, s.calls b.call = some x ∧ x.key = k ∧ x.ty = b.ty ∧ s.chan b.call = none ∧ x.phase ≠ .drawn
  pending : ∀ c x, s.calls c = some x → x.phase ≠ .drawn → s.chan c = none → s.map x.key = some ⟨c, x.ty⟩
  fresh : ∀ c x, s.calls c = some x → x.phase = .drawn → s.chan c = none
  nocall : ∀ c, s.calls c = none → s.chan c = none
  taken : ∀ k t, s.takes k = some t → ∃ sid url content, RpcEvent.receive k sid url content ∈ evs ∧ cfg.response sid url content = some t
  got : ∀ c m, s.chan c = some (some m) → ∃ x k sid url content, s.calls c = some x ∧ RpcEvent.receive k sid url content ∈ evs ∧
    cfg.response sid url content = some ⟨x.key, x.ty, m⟩
  fin : ∀ c x m, s.calls c = some x → x.phase = .finished (.ok m) → s.chan c = some (some m)

theorem key_inj {s : RpcState α} {cfg : RpcCfg α} {evs : List RpcEvent} (I : RpcInv cfg evs s) (hn : s.next ≤ 2 ^ 64) {c c' : Nat} {x x' : RpcCall α}
    (h : s.calls c = some x) (h' : s.calls c' = some x') (hk : x.key = x'.key) : c = c' := by
  apply I.uniq c c' x x' h h'
  have h1 := I.ix c x h
  have h2 := I.ix c' x' h'
  simp only [RpcCall.key, RpcKey.mk.injEq, RpcCall.rid] at hk
  have h3 := congrArg UInt64.toNat hk.2
  simp only [UInt64.toNat_ofNat'] at h3
  omega

theorem next_mono (cfg : RpcCfg α) (s : RpcState α) (e : RpcEvent) : s.next ≤ (s.step cfg e).next := by
  cases e with
  | start c sid ty => simp only [RpcState.step]; split <;> simp
  | insert c =>
    simp only [RpcState.step]
    split
    · split
      · simp only [RpcState.insert]; split <;> simp [RpcState.setCall, RpcState.setMap, RpcState.setChan]
      · simp
    · simp
  | send c ok =>
    simp only [RpcState.step]
    split
    · split <;> simp [RpcState.setCall]
    · exact Nat.le_refl _
  | wake c =>
    simp only [RpcState.step]
    split
    · split <;> simp [RpcState.setCall]
    · exact Nat.le_refl _
  | receive k sid url content =>
    simp only [RpcState.step]
    split
    · split <;> simp [RpcState.setTake]
    · exact Nat.le_refl _
  | take k =>
    simp only [RpcState.step]
    split
    · simp only [RpcState.take, RpcState.setTake]
      split
      · simp
      · split <;> simp [RpcState.setMap, RpcState.setChan]
    · simp
  | closed sid => simp [RpcState.step]

/-- A call that only changes its phase, from one that is not `drawn`. -/
theorem RpcInv.phase {cfg : RpcCfg α} {evs : List RpcEvent} {s : RpcState α} (I : RpcInv cfg evs s) {c : Nat} {x : RpcCall α} {p : CallPhase α}
    (hc : s.calls c = some x) (hx : x.phase ≠ .drawn) (hp : p ≠ .drawn) (hf : ∀ m, p = .finished (.ok m) → s.chan c = some (some m)) :
    RpcInv cfg evs (s.setCall c { x with phase := p }) := by
  have hcall : ∀ i y, (s.setCall c { x with phase := p }).calls i = some y → ∃ z, s.calls i = some z ∧ y.sid = z.sid ∧ y.ty = z.ty ∧ y.ix = z.ix ∧
      (i = c ∧ y.phase = p ∧ z = x ∨ i ≠ c ∧ y = z) := by
    intro i y h
    simp only [RpcState.setCall] at h
    split at h
    · rename_i hi; injection h with h; subst h hi; exact ⟨x, hc, rfl, rfl, rfl, .inl ⟨rfl, rfl, rfl⟩⟩
    · rename_i hi; exact ⟨y, h, rfl, rfl, rfl, .inr ⟨hi, rfl⟩⟩
  have hget : ∀ i z, s.calls i = some z → ∃ y, (s.setCall c { x with phase := p }).calls i = some y ∧ y.sid = z.sid ∧ y.ty = z.ty ∧ y.ix = z.ix ∧
      (z.phase ≠ .drawn → y.phase ≠ .drawn) := by
    intro i z h
    by_cases hi : i = c
    · subst hi; rw [hc] at h; injection h with h; subst h
      exact ⟨{ x with phase := p }, by simp [RpcState.setCall], rfl, rfl, rfl, fun _ => hp⟩
    · exact ⟨z, by simp [RpcState.setCall, hi, h], rfl, rfl, rfl, fun h => h⟩
  have hkey : ∀ y z : RpcCall α, y.sid = z.sid → y.ix = z.ix → y.key = z.key := by
    intro y z h1 h2; simp [RpcCall.key, RpcCall.rid, h1, h2]
  refine ⟨fun i y h => ?_, fun i j y y' h h' hix => ?_, fun k b h => ?_, fun i y h h1 h2 => ?_, fun i y h h1 => ?_, fun i h => ?_, I.taken, fun i m h => ?_, fun i y m h h1 => ?_⟩
  · obtain ⟨z, h1, -, -, h2, -⟩ := hcall i y h; rw [h2]; exact I.ix i z h1
  · obtain ⟨z, h1, -, -, h2, -⟩ := hcall i y h
    obtain ⟨z', h1', -, -, h2', -⟩ := hcall j y' h'
    exact I.uniq i j z z' h1 h1' (by omega)
  · obtain ⟨z, h1, h2, h3, h4, h5⟩ := I.entry k b h
    obtain ⟨y, g1, g2, g3, g4, g5⟩ := hget _ z h1
    exact ⟨y, g1, (hkey y z g2 g4).trans h2, g3.trans h3, h4, g5 h5⟩
  · obtain ⟨z, g1, g2, g3, g4, g5⟩ := hcall i y h
    rw [hkey y z g2 g4, g3]
    apply I.pending i z g1 _ h2
    rcases g5 with ⟨-, -, rfl⟩ | ⟨-, rfl⟩
    · exact hx
    · exact h1
  · obtain ⟨z, g1, g2, g3, g4, g5⟩ := hcall i y h
    rcases g5 with ⟨-, g, -⟩ | ⟨-, rfl⟩
    · exact absurd (g.symm.trans h1) hp
    · exact I.fresh i y g1 h1
  · apply I.nocall i
    simp only [RpcState.setCall] at h
    split at h
    · cases h
    · exact h
  · obtain ⟨z, k, sid, url, content, h1, h2, h3⟩ := I.got i m h
    obtain ⟨y, g1, g2, g3, g4, -⟩ := hget _ z h1
    exact ⟨y, k, sid, url, content, g1, h2, by rw [hkey y z g2 g4, g3]; exact h3⟩
  · obtain ⟨z, g1, g2, g3, g4, g5⟩ := hcall i y h
    rcases g5 with ⟨rfl, g, -⟩ | ⟨-, rfl⟩
    · exact hf m (g.symm.trans h1)
    · exact I.fin i y m g1 h1

theorem RpcInv.evs {cfg : RpcCfg α} {evs : List RpcEvent} {s : RpcState α} (I : RpcInv cfg evs s) (e : RpcEvent) : RpcInv cfg (evs ++ [e]) s where
  ix := I.ix
  uniq := I.uniq
  entry := I.entry
  pending := I.pending
  fresh := I.fresh
  nocall := I.nocall
  taken k t h := by obtain ⟨a, b, c, h1, h2⟩ := I.taken k t h; exact ⟨a, b, c, List.mem_append_left _ h1, h2⟩
  got c m h := by obtain ⟨x, k, a, b, d, h0, h1, h2⟩ := I.got c m h; exact ⟨x, k, a, b, d, h0, List.mem_append_left _ h1, h2⟩
  fin := I.fin

theorem RpcInv.step {cfg : RpcCfg α} {evs : List RpcEvent} {s : RpcState α} (I : RpcInv cfg evs s) (e : RpcEvent) (hn : (s.step cfg e).next ≤ 2 ^ 64) :
    RpcInv cfg (evs ++ [e]) (s.step cfg e) := by
  have hn0 : s.next ≤ 2 ^ 64 := Nat.le_trans (next_mono cfg s e) hn
  have I' := I.evs e
  cases e with
  | closed sid => exact I'
  | start c sid ty =>
    simp only [RpcState.step]
    split
    · exact I'
    · rename_i hc
      have hne : ∀ i x, s.calls i = some x → i ≠ c := by rintro i x h rfl; rw [hc] at h; cases h
      have hcall : ∀ i y, (if i = c then some ⟨sid, ty, s.next, .drawn⟩ else s.calls i) = some y → i = c ∧ y = ⟨sid, ty, s.next, .drawn⟩ ∨ i ≠ c ∧ s.calls i = some y := by
        intro i y h
        split at h
        · rename_i hi; injection h with h; exact .inl ⟨hi, h.symm⟩
        · rename_i hi; exact .inr ⟨hi, h⟩
      refine ⟨fun i y h => ?_, fun i j y y' h h' hix => ?_, fun k b h => ?_, fun i y h h1 h2 => ?_, fun i y h h1 => ?_, fun i h => ?_, I'.taken, fun i m h => ?_, fun i y m h h1 => ?_⟩
      · rcases hcall i y h with ⟨-, rfl⟩ | ⟨-, h⟩
        · exact Nat.lt_succ_self _
        · exact Nat.lt_succ_of_lt (I.ix i y h)
      · rcases hcall i y h with ⟨hi, hy⟩ | ⟨-, g⟩ <;> rcases hcall j y' h' with ⟨hj, hy'⟩ | ⟨-, g'⟩
        · rw [hi, hj]
        · have := I.ix j y' g'; rw [hy] at hix; simp only at hix; omega
        · have := I.ix i y g; rw [hy'] at hix; simp only at hix; omega
        · exact I.uniq i j y y' g g' hix
      · obtain ⟨z, h1, h2⟩ := I.entry k b h
        exact ⟨z, by simp only [RpcState.setCall]; rw [if_neg (hne _ z h1)]; exact h1, h2⟩
      · rcases hcall i y h with ⟨-, rfl⟩ | ⟨-, h⟩
        · exact absurd rfl h1
        · exact I.pending i y h h1 h2
      · rcases hcall i y h with ⟨rfl, -⟩ | ⟨-, h⟩
        · exact I.nocall i hc
        · exact I.fresh i y h h1
      · simp only [RpcState.setCall] at h
        split at h
        · cases h
        · exact I.nocall i h
      · obtain ⟨z, k, a, b, d, h1, h2⟩ := I'.got i m h
        exact ⟨z, k, a, b, d, by simp only [RpcState.setCall]; rw [if_neg (hne _ z h1)]; exact h1, h2⟩
      · rcases hcall i y h with ⟨-, rfl⟩ | ⟨-, h⟩
        · cases h1
        · exact I.fin i y m h h1
  | insert c =>
    simp only [RpcState.step]
    split
    · rename_i x hc
      split
      · rename_i hp
        -- the key is new
        have hmap : s.map x.key = none := by
          cases hm : s.map x.key with
          | none => rfl
          | some b =>
            obtain ⟨y, h1, h2, -, -, h5⟩ := I.entry _ b hm
            have := key_inj I hn0 h1 hc h2
            subst this
            rw [hc] at h1; injection h1 with h1; subst h1
            exact absurd hp h5
        have hchan := I.fresh c x hc hp
        have hins : s.insert c x = (s.setMap x.key (some ⟨c, x.ty⟩)).setCall c { x with phase := .inserted } := by
          unfold RpcState.insert; rw [hmap]
        rw [hins]
        have hkx : ({ x with phase := .inserted } : RpcCall α).key = x.key := rfl
        have hcall : ∀ i y, ((s.setMap x.key (some ⟨c, x.ty⟩)).setCall c { x with phase := .inserted }).calls i = some y →
            i = c ∧ y = { x with phase := .inserted } ∨ i ≠ c ∧ s.calls i = some y := by
          intro i y h
          simp only [RpcState.setCall, RpcState.setMap] at h
          split at h
          · rename_i hi; injection h with h; exact .inl ⟨hi, h.symm⟩
          · rename_i hi; exact .inr ⟨hi, h⟩
        have hsome : ∀ i z, i ≠ c → s.calls i = some z → ((s.setMap x.key (some ⟨c, x.ty⟩)).setCall c { x with phase := .inserted }).calls i = some z := by
          intro i z hi h; simp [RpcState.setCall, RpcState.setMap, hi, h]
        have hself : ((s.setMap x.key (some ⟨c, x.ty⟩)).setCall c { x with phase := .inserted }).calls c = some { x with phase := .inserted } := by
          simp [RpcState.setCall]
        refine ⟨fun i y h => ?_, fun i j y y' h h' hix => ?_, fun k b h => ?_, fun i y h h1 h2 => ?_, fun i y h h1 => ?_, fun i h => ?_, I'.taken, fun i m h => ?_, fun i y m h h1 => ?_⟩
        · rcases hcall i y h with ⟨-, rfl⟩ | ⟨-, h⟩
          · exact I.ix c x hc
          · exact I.ix i y h
        · rcases hcall i y h with ⟨hi, hy⟩ | ⟨-, g⟩ <;> rcases hcall j y' h' with ⟨hj, hy'⟩ | ⟨-, g'⟩
          · rw [hi, hj]
          · rw [hi]; exact I.uniq _ _ _ _ hc g' (by rw [hy] at hix; exact hix)
          · rw [hj]; exact I.uniq _ _ _ _ g hc (by rw [hy'] at hix; exact hix)
          · exact I.uniq i j y y' g g' hix
        · simp only [RpcState.setMap, RpcState.setCall] at h
          split at h
          · rename_i hk
            injection h with h; subst h hk
            exact ⟨_, hself, hkx, rfl, hchan, by simp⟩
          · obtain ⟨z, h1, h2, h3, h4, h5⟩ := I.entry k b h
            by_cases hi : b.call = c
            · rw [hi, hc] at h1; injection h1 with h1; subst h1
              exact absurd hp h5
            · exact ⟨z, hsome _ z hi h1, h2, h3, h4, h5⟩
        · rcases hcall i y h with ⟨rfl, rfl⟩ | ⟨hi, h⟩
          · simp [RpcState.setMap, RpcState.setCall, hkx]
          · have hne : y.key ≠ x.key := fun he => hi (key_inj I hn0 h hc he)
            simp only [RpcState.setMap, RpcState.setCall, hne, if_false]
            exact I.pending i y h h1 h2
        · rcases hcall i y h with ⟨rfl, rfl⟩ | ⟨hi, h⟩
          · cases h1
          · exact I.fresh i y h h1
        · apply I.nocall i
          simp only [RpcState.setCall, RpcState.setMap] at h
          split at h
          · cases h
          · exact h
        · obtain ⟨z, k, a, b, d, h1, h2⟩ := I'.got i m h
          by_cases hi : i = c
          · subst hi
            have h' : s.chan i = some (some m) := h
            rw [hchan] at h'; cases h'
          · exact ⟨z, k, a, b, d, hsome _ z hi h1, h2⟩
        · rcases hcall i y h with ⟨rfl, rfl⟩ | ⟨hi, h⟩
          · cases h1
          · exact I.fin i y m h h1
      · exact I'
    · exact I'
  | send c ok =>
    simp only [RpcState.step]
    split
    · rename_i x hc
      split
      · rename_i hp
        refine I'.phase hc (by rw [hp]; simp) ?_ ?_
        · cases ok <;> simp
        · cases ok <;> intro m h <;> cases h
      · exact I'
    · exact I'
  | wake c =>
    simp only [RpcState.step]
    split
    · rename_i x v hc hv
      split
      · rename_i hp
        refine I'.phase hc (by rw [hp]; simp) (by simp) ?_
        intro m h
        cases v with
        | none => cases h
        | some m' => simp only at h; injection h with h; injection h with h; subst h; exact hv
      · exact I'
    · exact I'
  | receive k sid url content =>
    simp only [RpcState.step]
    split
    · rename_i t hk ht
      split
      · refine { I' with taken := fun k' t' h => ?_ }
        simp only [RpcState.setTake] at h
        split at h
        · rename_i hi; injection h with h; subst h hi
          exact ⟨sid, url, content, by simp, ht⟩
        · exact I'.taken k' t' h
      · exact I'
    · exact I'
  | take k =>
    simp only [RpcState.step]
    split
    · rename_i t hk
      obtain ⟨sid, url, content, hm, hr⟩ := I'.taken k t hk
      have htake : ∀ k' t', ((s.take t).setTake k none).takes k' = some t' → s.takes k' = some t' := by
        intro k' t' h
        simp only [RpcState.setTake] at h
        split at h
        · cases h
        · have : (s.take t).takes = s.takes := by
            unfold RpcState.take
            split
            · rfl
            · simp only; split <;> rfl
          rw [this] at h
          exact h
      have hcalls : ((s.take t).setTake k none).calls = s.calls := by
        unfold RpcState.take RpcState.setTake
        split
        · rfl
        · simp only; split <;> rfl
      have hnext : ((s.take t).setTake k none).next = s.next := by
        unfold RpcState.take RpcState.setTake
        split
        · rfl
        · simp only; split <;> rfl
      cases hb : s.map t.key with
      | none =>
        have hs : s.take t = s := by unfold RpcState.take; rw [hb]
        rw [hs]
        exact { I' with taken := fun k' t' h => I'.taken k' t' (by have := htake k' t' (by rw [hs]; exact h); exact this) }
      | some b =>
        obtain ⟨x, hx, hxk, hxt, hxc, hxp⟩ := I.entry _ b hb
        have hmap : ∀ i, ((s.take t).setTake k none).map i = if i = t.key then none else s.map i := by
          intro i
          unfold RpcState.take RpcState.setTake
          rw [hb]
          simp only
          split <;> rfl
        have hchan : ∀ i, ((s.take t).setTake k none).chan i = if i = b.call then some (if b.ty = t.ty then some t.msg else none) else s.chan i := by
          intro i
          unfold RpcState.take RpcState.setTake
          rw [hb]
          simp only
          split <;> rfl
        refine ⟨?_, ?_, fun k' b' h => ?_, fun i y h h1 h2 => ?_, fun i y h h1 => ?_, fun i h => ?_, fun k' t' h => I'.taken k' t' (htake k' t' h), fun i m h => ?_, fun i y m h h1 => ?_⟩
        · rw [hcalls, hnext]; exact I.ix
        · rw [hcalls]; exact I.uniq
        · rw [hmap] at h
          split at h
          · cases h
          · rename_i hne
            obtain ⟨z, h1, h2, h3, h4, h5⟩ := I.entry k' b' h
            refine ⟨z, by rw [hcalls]; exact h1, h2, h3, ?_, h5⟩
            rw [hchan]
            split
            · rename_i he
              rw [he, hx] at h1; injection h1 with h1; subst h1
              exact absurd (h2.symm.trans hxk) hne
            · exact h4
        · rw [hcalls] at h
          rw [hchan] at h2
          split at h2
          · cases h2
          · rename_i hi
            have := I.pending i y h h1 h2
            rw [hmap]
            split
            · rename_i hk'
              rw [hk', hb] at this
              injection this with this
              exact absurd (by rw [this]) hi
            · exact this
        · rw [hcalls] at h
          have := I.fresh i y h h1
          rw [hchan]
          split
          · rename_i hi
            rw [hi, hx] at h; injection h with h; subst h
            exact absurd h1 hxp
          · exact this
        · rw [hcalls] at h
          rw [hchan]
          split
          · rename_i hi; rw [hi, hx] at h; cases h
          · exact I.nocall i h
        · rw [hchan] at h
          split at h
          · rename_i hi
            subst hi
            split at h
            · rename_i hty
              injection h with h; injection h with h; subst h
              refine ⟨x, k, sid, url, content, by rw [hcalls]; exact hx, hm, ?_⟩
              rw [hr, hxk, hxt, hty]
            · cases h
          · obtain ⟨z, k', a, b', d, h1, h2⟩ := I'.got i m h
            exact ⟨z, k', a, b', d, by rw [hcalls]; exact h1, h2⟩
        · rw [hcalls] at h
          have := I.fin i y m h h1
          rw [hchan]
          split
          · rename_i hi; rw [hi, hxc] at this; cases this
          · exact this
    · exact I'

theorem RpcState.after_snoc (cfg : RpcCfg α) (evs : List RpcEvent) (e : RpcEvent) : RpcState.after cfg (evs ++ [e]) = (RpcState.after cfg evs).step cfg e := by
  simp [RpcState.after]

theorem rpcInv (cfg : RpcCfg α) (evs : List RpcEvent) (hn : (RpcState.after cfg evs).next ≤ 2 ^ 64) : RpcInv cfg evs (RpcState.after cfg evs) := by
  have go : ∀ l : List RpcEvent, (RpcState.after cfg l.reverse).next ≤ 2 ^ 64 → RpcInv cfg l.reverse (RpcState.after cfg l.reverse) := by
    intro l
    induction l with
    | nil =>
      intro _
      exact ⟨nofun, nofun, nofun, nofun, nofun, fun _ _ => rfl, nofun, nofun, nofun⟩
    | cons e l ih =>
      intro h
      rw [List.reverse_cons, RpcState.after_snoc] at *
      exact (ih (Nat.le_trans (next_mono _ _ _) h)).step e h
  have := go evs.reverse
  rw [List.reverse_reverse] at this
  exact this hn

/-! ### C53 -/

/-- The message with this url and content is a response of message type `ty` with id `rid`, and carries `m`. -/
def IsResponse (cfg : RpcCfg α) (url : Str) (content : Bytes) (rid : UInt64) (ty : Nat) (m : α) : Prop :=
  ∃ e, Endpoint.parse url = .ok e ∧ e.scheme = some .rpcResp ∧ e.rpcId = .ok rid ∧ cfg.reactors.route url = .ok ty ∧ cfg.decode ty content = some m

theorem response_spec {cfg : RpcCfg α} {sid : Nat} {url : Str} {content : Bytes} {t : Taking α} :
    cfg.response sid url content = some t ↔ t.key.sid = sid ∧ IsResponse cfg url content t.key.rid t.ty t.msg := by
  unfold RpcCfg.response IsResponse
  cases hr : cfg.reactors.route url with
  | error e => simp
  | ok ty =>
    cases hp : Endpoint.parse url with
    | error e => simp
    | ok e =>
      cases hd : cfg.decode ty content with
      | none =>
        simp only [hd, reduceCtorEq, false_iff]
        rintro ⟨-, e', -, -, -, h1, h2⟩
        injection h1 with h1; rw [← h1, hd] at h2; cases h2
      | some x =>
        simp only [hd]
        split
        · rename_i hs
          cases hi : e.rpcId with
          | error err =>
            simp only [reduceCtorEq, false_iff]
            rintro ⟨-, e', h1, -, h2, -⟩
            injection h1 with h1; subst h1
            rw [hi] at h2; cases h2
          | ok rid =>
            simp only
            constructor
            · intro h
              injection h with h; subst h
              exact ⟨rfl, e, rfl, hs, hi, rfl, hd⟩
            · rintro ⟨h0, e', h1, -, h2, h3, h4⟩
              injection h1 with h1; subst h1
              injection h3 with h3; subst h3
              rw [hi] at h2; injection h2 with h2
              rw [hd] at h4; injection h4 with h4
              obtain ⟨⟨a, b⟩, c, d⟩ := t
              simp only at *
              subst h0 h2 h4
              rfl
        · rename_i hs
          simp only [reduceCtorEq, false_iff]
          rintro ⟨-, e', h1, h2, -⟩
          injection h1 with h1; subst h1
          exact hs h2

/-- C53: calls have different ids, as long as fewer than 2^64 calls were made. -/
theorem C53_ids (cfg : RpcCfg α) (evs : List RpcEvent) (hn : (RpcState.after cfg evs).next ≤ 2 ^ 64) (c c' : Nat) (x x' : RpcCall α) (hne : c ≠ c')
    (h : (RpcState.after cfg evs).calls c = some x) (h' : (RpcState.after cfg evs).calls c' = some x') : x.rid ≠ x'.rid := by
  have I := rpcInv cfg evs hn
  intro he
  apply hne
  apply I.uniq c c' x x' h h'
  have h1 := I.ix c x h
  have h2 := I.ix c' x' h'
  have h3 := congrArg UInt64.toNat he
  simp only [RpcCall.rid, UInt64.toNat_ofNat'] at h3
  omega

/-- C53: a call only returns what was received on its session as a response with its id and of its type. -/
theorem C53_genuine (cfg : RpcCfg α) (evs : List RpcEvent) (hn : (RpcState.after cfg evs).next ≤ 2 ^ 64) (c : Nat) (x : RpcCall α) (m : α)
    (h : (RpcState.after cfg evs).calls c = some x) (hf : x.phase = .finished (.ok m)) :
    ∃ k url content, RpcEvent.receive k x.sid url content ∈ evs ∧ IsResponse cfg url content x.rid x.ty m := by
  have I := rpcInv cfg evs hn
  obtain ⟨y, k, sid, url, content, h1, h2, h3⟩ := I.got c m (I.fin c x m h hf)
  rw [h] at h1; injection h1 with h1; subst h1
  obtain ⟨h4, h5⟩ := response_spec.mp h3
  simp only [RpcCall.key] at h4
  subst h4
  exact ⟨k, url, content, h2, h5⟩

/-- The channel of a call changes only by a `take` of its key. -/
theorem chan_step {cfg : RpcCfg α} {evs : List RpcEvent} {s : RpcState α} (I : RpcInv cfg evs s) (hn : s.next ≤ 2 ^ 64) (e : RpcEvent) (c : Nat)
    (h : (s.step cfg e).chan c ≠ s.chan c) :
    s.chan c = none ∧ ∃ k t x, e = .take k ∧ s.takes k = some t ∧ s.calls c = some x ∧ x.key = t.key ∧ s.map t.key = some ⟨c, x.ty⟩ ∧
      (s.step cfg e).chan c = some (if x.ty = t.ty then some t.msg else none) := by
  cases e with
  | closed sid => exact absurd rfl h
  | start c' sid ty => exfalso; apply h; simp only [RpcState.step]; split <;> rfl
  | insert c' =>
    exfalso; apply h
    simp only [RpcState.step]
    split
    · rename_i x hc
      split
      · rename_i hp
        have hmap : s.map x.key = none := by
          cases hm : s.map x.key with
          | none => rfl
          | some b =>
            obtain ⟨y, h1, h2, -, -, h5⟩ := I.entry _ b hm
            have := key_inj I hn h1 hc h2
            subst this
            rw [hc] at h1; injection h1 with h1; subst h1
            exact absurd hp h5
        unfold RpcState.insert; rw [hmap]; rfl
      · rfl
    · rfl
  | send c' ok =>
    exfalso; apply h; simp only [RpcState.step]
    split
    · split <;> rfl
    · rfl
  | wake c' =>
    exfalso; apply h; simp only [RpcState.step]
    split
    · split <;> rfl
    · rfl
  | receive k sid url content =>
    exfalso; apply h; simp only [RpcState.step]
    split
    · split <;> rfl
    · rfl
  | take k =>
    simp only [RpcState.step] at h ⊢
    cases hk : s.takes k with
    | none => rw [hk] at h; exact absurd rfl h
    | some t =>
      rw [hk] at h
      simp only at h ⊢
      cases hb : s.map t.key with
      | none =>
        exfalso; apply h
        unfold RpcState.take RpcState.setTake
        rw [hb]
      | some b =>
        have hchan : ∀ i, ((s.take t).setTake k none).chan i = if i = b.call then some (if b.ty = t.ty then some t.msg else none) else s.chan i := by
          intro i
          unfold RpcState.take RpcState.setTake
          rw [hb]
          simp only
          split <;> rfl
        rw [hchan] at h
        have hc : c = b.call := by
          apply Classical.byContradiction; intro hne; rw [if_neg hne] at h; exact h rfl
        obtain ⟨x, hx, hxk, hxt, hxc, hxp⟩ := I.entry _ b hb
        subst hc
        refine ⟨hxc, k, t, x, rfl, hk, hx, hxk, ?_, ?_⟩
        · rw [hb, hxt]
        · rw [hchan, if_pos rfl, hxt]

/-- C53: what a call got is final: nothing that happens later changes it. -/
theorem C53_once (cfg : RpcCfg α) (evs more : List RpcEvent) (hn : (RpcState.after cfg (evs ++ more)).next ≤ 2 ^ 64) (c : Nat) (v : Option α)
    (h : (RpcState.after cfg evs).chan c = some v) : (RpcState.after cfg (evs ++ more)).chan c = some v := by
  have go : ∀ l : List RpcEvent, (RpcState.after cfg (evs ++ l.reverse)).next ≤ 2 ^ 64 → (RpcState.after cfg (evs ++ l.reverse)).chan c = some v := by
    intro l
    induction l with
    | nil => intro _; simpa using h
    | cons e l ih =>
      intro hl
      rw [List.reverse_cons, ← List.append_assoc, RpcState.after_snoc] at hl ⊢
      have hl' := Nat.le_trans (next_mono _ _ _) hl
      have := ih hl'
      apply Classical.byContradiction
      intro hne
      rw [← this] at hne
      have := (chan_step (rpcInv cfg _ hl') hl' e c hne).1
      rw [ih hl'] at this; cases this
  have := go more.reverse
  rw [List.reverse_reverse] at this
  exact this hn

/-- C53: one event gives at most one call a result, and then it is a response taken for the id of this call on its session. -/
theorem C53_one (cfg : RpcCfg α) (evs : List RpcEvent) (e : RpcEvent) (hn : (RpcState.after cfg evs).next ≤ 2 ^ 64) (c : Nat)
    (h : (RpcState.after cfg (evs ++ [e])).chan c ≠ (RpcState.after cfg evs).chan c) :
    (∃ k x sid url content rid ty m, e = .take k ∧ RpcEvent.receive k sid url content ∈ evs ∧ IsResponse cfg url content rid ty m ∧
      (RpcState.after cfg evs).calls c = some x ∧ x.sid = sid ∧ x.rid = rid ∧
      (RpcState.after cfg (evs ++ [e])).chan c = some (if x.ty = ty then some m else none)) ∧
    ∀ c', (RpcState.after cfg (evs ++ [e])).chan c' ≠ (RpcState.after cfg evs).chan c' → c' = c := by
  rw [RpcState.after_snoc] at h ⊢
  have I := rpcInv cfg evs hn
  obtain ⟨-, k, t, x, rfl, hk, hx, hxk, hmap, hres⟩ := chan_step I hn e c h
  obtain ⟨sid, url, content, h1, h2⟩ := I.taken k t hk
  obtain ⟨h3, h4⟩ := response_spec.mp h2
  refine ⟨⟨k, x, sid, url, content, t.key.rid, t.ty, t.msg, rfl, h1, h4, hx, ?_, ?_, hres⟩, ?_⟩
  · rw [← h3, ← hxk]; rfl
  · rw [← hxk]; rfl
  · intro c' h'
    obtain ⟨-, k', t', x', he, hk', hx', -, hmap', -⟩ := chan_step I hn _ c' h'
    injection he with he; subst he
    rw [hk] at hk'; injection hk' with hk'; subst hk'
    rw [hmap] at hmap'; injection hmap' with hmap'; injection hmap' with hmap' _
    exact hmap'.symm

/-- What remains of a call that waits: it can still be answered. -/
def Waiting (s : RpcState α) (c : Nat) (x : RpcCall α) : Prop :=
  s.calls c = some x ∧ x.phase = .sent ∧ s.chan c = none

/-- C53: messages that are no response for the session and id of a waiting call - unknown ids, other sessions, requests, gossip,
garbage - and everything other calls do leave it waiting, registered and unanswered. -/
theorem C53_undisturbed (cfg : RpcCfg α) (evs : List RpcEvent) (e : RpcEvent) (hn : (RpcState.after cfg evs).next ≤ 2 ^ 64) (c : Nat) (x : RpcCall α)
    (hw : Waiting (RpcState.after cfg evs) c x)
    (he : ∀ k, e = .take k → ∀ t, (RpcState.after cfg evs).takes k = some t → ¬ (t.key.sid = x.sid ∧ t.key.rid = x.rid)) :
    Waiting (RpcState.after cfg (evs ++ [e])) c x := by
  have I := rpcInv cfg evs hn
  rw [RpcState.after_snoc]
  obtain ⟨h1, h2, h3⟩ := hw
  have hchan : ((RpcState.after cfg evs).step cfg e).chan c = none := by
    apply Classical.byContradiction
    intro hne
    rw [← h3] at hne
    obtain ⟨-, k, t, y, rfl, hk, hy, hyk, -, -⟩ := chan_step I hn e c hne
    rw [h1] at hy; injection hy with hy; subst hy
    apply he k rfl t hk
    rw [← hyk]
    exact ⟨rfl, rfl⟩
  refine ⟨?_, h2, hchan⟩
  generalize RpcState.after cfg evs = s at *
  cases e with
  | closed sid => exact h1
  | start c' sid ty =>
    simp only [RpcState.step]
    split
    · exact h1
    · rename_i hc
      have : c ≠ c' := by rintro rfl; rw [hc] at h1; cases h1
      simp [RpcState.setCall, this, h1]
  | insert c' =>
    simp only [RpcState.step]
    split
    · rename_i y hc
      split
      · rename_i hp
        have : c ≠ c' := by rintro rfl; rw [hc] at h1; injection h1 with h1; subst h1; rw [h2] at hp; cases hp
        simp only [RpcState.insert]
        split <;> simp [RpcState.setCall, RpcState.setMap, RpcState.setChan, this, h1]
      · exact h1
    · exact h1
  | send c' ok =>
    simp only [RpcState.step]
    split
    · rename_i y hc
      split
      · rename_i hp
        have : c ≠ c' := by rintro rfl; rw [hc] at h1; injection h1 with h1; subst h1; rw [h2] at hp; cases hp
        simp [RpcState.setCall, this, h1]
      · exact h1
    · exact h1
  | wake c' =>
    simp only [RpcState.step]
    split
    · rename_i y v hc hv
      split
      · have : c ≠ c' := by rintro rfl; rw [h3] at hv; cases hv
        simp [RpcState.setCall, this, h1]
      · exact h1
    · exact h1
  | receive k sid url content =>
    simp only [RpcState.step]
    split
    · split <;> exact h1
    · exact h1
  | take k =>
    simp only [RpcState.step]
    split
    · unfold RpcState.take RpcState.setTake
      split
      · exact h1
      · simp only; split <;> exact h1
    · exact h1

/-- C53: a response with the id, the session and the type of a waiting call is delivered to it, and the call returns it. -/
theorem C53_answered (cfg : RpcCfg α) (evs : List RpcEvent) (hn : (RpcState.after cfg evs).next ≤ 2 ^ 64) (c k : Nat) (x : RpcCall α) (url : Str) (content : Bytes) (m : α)
    (hw : Waiting (RpcState.after cfg evs) c x) (hk : (RpcState.after cfg evs).takes k = none) (hr : IsResponse cfg url content x.rid x.ty m) :
    (RpcState.after cfg (evs ++ [.receive k x.sid url content, .take k, .wake c])).calls c = some { x with phase := .finished (.ok m) } := by
  have I := rpcInv cfg evs hn
  have ht : cfg.response x.sid url content = some ⟨x.key, x.ty, m⟩ := response_spec.mpr ⟨rfl, hr⟩
  have hmap := I.pending c x hw.1 (by rw [hw.2.1]; simp) hw.2.2
  have happ : evs ++ [RpcEvent.receive k x.sid url content, .take k, .wake c] = ((evs ++ [.receive k x.sid url content]) ++ [.take k]) ++ [.wake c] := by simp
  rw [happ, RpcState.after_snoc, RpcState.after_snoc, RpcState.after_snoc]
  generalize RpcState.after cfg evs = s at *
  have h1 : s.step cfg (.receive k x.sid url content) = s.setTake k (some ⟨x.key, x.ty, m⟩) := by
    simp only [RpcState.step]; rw [hk, ht]; simp [hmap]
  rw [h1]
  have h2 : (s.setTake k (some ⟨x.key, x.ty, m⟩)).step cfg (.take k) =
      ((((s.setTake k (some ⟨x.key, x.ty, m⟩)).setMap x.key none).setChan c (some m)).setTake k none) := by
    simp only [RpcState.step]
    have hg : (s.setTake k (some ⟨x.key, x.ty, m⟩)).takes k = some ⟨x.key, x.ty, m⟩ := by simp [RpcState.setTake]
    rw [hg]
    simp only [RpcState.take]
    have hg2 : (s.setTake k (some ⟨x.key, x.ty, m⟩)).map x.key = some ⟨c, x.ty⟩ := hmap
    rw [hg2]
    simp
  rw [h2]
  simp only [RpcState.step]
  have hc : ((((s.setTake k (some ⟨x.key, x.ty, m⟩)).setMap x.key none).setChan c (some m)).setTake k none).calls c = some x := hw.1
  have hv : ((((s.setTake k (some ⟨x.key, x.ty, m⟩)).setMap x.key none).setChan c (some m)).setTake k none).chan c = some (some m) := by
    simp [RpcState.setTake, RpcState.setChan]
  rw [hc, hv]
  simp only [hw.2.1]
  simp [RpcState.setCall]

/-- C53 with C54: the request of a call carries its id, and so does the response to it: both sides extend the url by the id and read
it back. -/
theorem C53_request (s : Str) (e e' : Endpoint) (x : RpcCall α) (h : Endpoint.parse s = .ok e) (hx : e.extend (showNat x.rid.toNat) = .ok e') :
    e'.rpcId = .ok x.rid ∧ e'.root = e.root ∧ e'.scheme = e.scheme := by
  obtain ⟨h1, -⟩ := C54_extend s e x.rid h
  obtain ⟨h2, h3, h4, -⟩ := h1 e' hx
  exact ⟨h4, h2, h3⟩

/-! ### C66 -/

/-- Nothing under way or in `more` is a response for the session and id of `x`. -/
def NoResponse (cfg : RpcCfg α) (s : RpcState α) (more : List RpcEvent) (x : RpcCall α) : Prop :=
  (∀ k t, s.takes k = some t → ¬ (t.key.sid = x.sid ∧ t.key.rid = x.rid)) ∧
  ∀ k url content ty m, RpcEvent.receive k x.sid url content ∈ more → ¬ IsResponse cfg url content x.rid ty m

theorem takes_step (cfg : RpcCfg α) (s : RpcState α) (e : RpcEvent) (k : Nat) (t : Taking α) (h : (s.step cfg e).takes k = some t) :
    s.takes k = some t ∨ ∃ sid url content, e = .receive k sid url content ∧ cfg.response sid url content = some t := by
  cases e with
  | closed sid => exact .inl h
  | start c' sid ty => simp only [RpcState.step] at h; split at h <;> exact .inl h
  | insert c' =>
    simp only [RpcState.step] at h
    split at h
    · split at h
      · simp only [RpcState.insert] at h
        split at h <;> exact .inl h
      · exact .inl h
    · exact .inl h
  | send c' ok =>
    simp only [RpcState.step] at h
    split at h
    · split at h <;> exact .inl h
    · exact .inl h
  | wake c' =>
    simp only [RpcState.step] at h
    split at h
    · split at h <;> exact .inl h
    · exact .inl h
  | receive k' sid url content =>
    simp only [RpcState.step] at h
    split at h
    · rename_i t' hk ht
      split at h
      · simp only [RpcState.setTake] at h
        split at h
        · rename_i hi; injection h with h; subst h hi; exact .inr ⟨sid, url, content, rfl, ht⟩
        · exact .inl h
      · exact .inl h
    · exact .inl h
  | take k' =>
    simp only [RpcState.step] at h
    split at h
    · rename_i t' hk
      simp only [RpcState.setTake] at h
      split at h
      · cases h
      · have : (s.take t').takes = s.takes := by
          unfold RpcState.take
          split
          · rfl
          · simp only; split <;> rfl
        rw [this] at h
        exact .inl h
    · exact .inl h

/-- C66 is false: a call whose peer never answers never ends, whatever else happens and however long - not even when the session is
closed: there is no timeout and closing a session does not touch its calls. -/
theorem C66_refuted (cfg : RpcCfg α) (evs more : List RpcEvent) (hn : (RpcState.after cfg (evs ++ more)).next ≤ 2 ^ 64) (c : Nat) (x : RpcCall α)
    (hw : Waiting (RpcState.after cfg evs) c x) (hno : NoResponse cfg (RpcState.after cfg evs) more x) :
    Waiting (RpcState.after cfg (evs ++ more)) c x := by
  have go : ∀ l : List RpcEvent, (∀ e ∈ l, e ∈ more) → (RpcState.after cfg (evs ++ l.reverse)).next ≤ 2 ^ 64 →
      Waiting (RpcState.after cfg (evs ++ l.reverse)) c x ∧
      ∀ k t, (RpcState.after cfg (evs ++ l.reverse)).takes k = some t → ¬ (t.key.sid = x.sid ∧ t.key.rid = x.rid) := by
    intro l
    induction l with
    | nil => intro _ _; simp only [List.reverse_nil, List.append_nil]; exact ⟨hw, hno.1⟩
    | cons e l ih =>
      intro hm hl
      rw [List.reverse_cons, ← List.append_assoc, RpcState.after_snoc] at hl ⊢
      have hl' := Nat.le_trans (next_mono _ _ _) hl
      obtain ⟨h1, h2⟩ := ih (fun e he => hm e (by simp [he])) hl'
      constructor
      · have := C53_undisturbed cfg (evs ++ l.reverse) e hl' c x h1 (fun k _ t ht => h2 k t ht)
        rw [RpcState.after_snoc] at this
        exact this
      · intro k t ht
        rcases takes_step cfg _ e k t ht with h | ⟨sid, url, content, rfl, hr⟩
        · exact h2 k t h
        · rintro ⟨h3, h4⟩
          obtain ⟨h5, h6⟩ := response_spec.mp hr
          rw [h3] at h5; subst h5
          rw [h4] at h6
          exact hno.2 k url content t.ty t.msg (hm _ (by simp)) h6
  have := go more.reverse (by simp)
  rw [List.reverse_reverse] at this
  exact (this hn).1

/-- C66: a call does end once it has been answered, if it gets to run: with the answer, or with an error if the answer had another type. -/
theorem C66_partial (cfg : RpcCfg α) (evs : List RpcEvent) (c : Nat) (x : RpcCall α) (v : Option α)
    (h : (RpcState.after cfg evs).calls c = some x) (hp : x.phase = .sent) (hv : (RpcState.after cfg evs).chan c = some v) :
    ∃ r, (RpcState.after cfg (evs ++ [.wake c])).calls c = some { x with phase := .finished r } ∧ ∀ m, (r = .ok m ↔ v = some m) := by
  rw [RpcState.after_snoc]
  simp only [RpcState.step]
  rw [h, hv]
  simp only [hp]
  cases v with
  | none => exact ⟨.error .dropped, by simp [RpcState.setCall], by simp⟩
  | some m => exact ⟨.ok m, by simp [RpcState.setCall], by intro m'; simp⟩

/-- C66: the table of calls is not cleaned either: a call whose request could not be sent stays in it until a response for it comes. -/
theorem C66_leak (cfg : RpcCfg α) (evs : List RpcEvent) (hn : (RpcState.after cfg evs).next ≤ 2 ^ 64) (c : Nat) (x : RpcCall α)
    (h : (RpcState.after cfg evs).calls c = some x) (hf : x.phase = .finished (.error .send)) (hc : (RpcState.after cfg evs).chan c = none) :
    (RpcState.after cfg evs).map ⟨x.sid, x.rid⟩ = some ⟨c, x.ty⟩ :=
  (rpcInv cfg evs hn).pending c x h (by rw [hf]; simp) hc

/-- C66: a call whose request cannot be sent ends at once, with an error. -/
theorem C66_unsent (cfg : RpcCfg α) (evs : List RpcEvent) (c : Nat) (x : RpcCall α)
    (h : (RpcState.after cfg evs).calls c = some x) (hp : x.phase = .inserted) :
    (RpcState.after cfg (evs ++ [.send c false])).calls c = some { x with phase := .finished (.error .send) } := by
  rw [RpcState.after_snoc]
  simp only [RpcState.step]
  rw [h]
  simp [hp, RpcState.setCall]

/-- C66: a call that waits while its id is given out again on its session (after 2^64 further calls) ends with an error once it runs. -/
theorem C66_reused_id (cfg : RpcCfg α) (s : RpcState α) (c c2 : Nat) (x x2 : RpcCall α) (hne : c ≠ c2) (h : s.calls c = some x) (hp : x.phase = .sent)
    (hm : s.map x.key = some ⟨c, x.ty⟩) (h2 : s.calls c2 = some x2) (hp2 : x2.phase = .drawn) (hk : x2.key = x.key) :
    ((s.step cfg (.insert c2)).step cfg (.wake c)).calls c = some { x with phase := .finished (.error .dropped) } := by
  have h3 : s.step cfg (.insert c2) = s.insert c2 x2 := by simp only [RpcState.step, h2, hp2]
  have h4 : (s.insert c2 x2).calls c = some x := by
    simp [RpcState.insert, hk, hm, RpcState.setCall, RpcState.setMap, RpcState.setChan, hne, h]
  have h5 : (s.insert c2 x2).chan c = some none := by
    simp [RpcState.insert, hk, hm, RpcState.setCall, RpcState.setMap, RpcState.setChan]
  rw [h3]
  simp only [RpcState.step]
  rw [h4, h5]
  simp [hp, RpcState.setCall]

/-! ### A concrete run -/

/-- Responses of synchronisation, with the endpoint of consensus/src/message.rs:22. -/
def rpcDemoUrl : Str := "/rpc_resp/consensus/sync_pull".toList

def rpcDemo : RpcCfg Nat where
  reactors := Reactors.register [] ⟨rpcDemoUrl⟩ 7
  decode _ b := some b.length

/-- Two calls on session 5; the responses come in the other order, one is repeated, and one comes from session 6. -/
def rpcRun : List RpcEvent :=
  [.start 0 5 7, .start 1 5 7, .insert 1, .insert 0, .send 0 true, .send 1 true,
   .receive 0 6 (rpcDemoUrl ++ "/0".toList) [1, 1, 1, 1], .receive 1 5 (rpcDemoUrl ++ "/1".toList) [1], .receive 2 5 (rpcDemoUrl ++ "/1".toList) [1, 1],
   .take 2, .take 1, .take 0, .closed 6]

/-- What a call returned. -/
def RpcState.result (s : RpcState α) (c : Nat) : Option (Option α) :=
  match s.calls c with
  | some x => match x.phase with
    | .finished (.ok m) => some (some m)
    | .finished (.error _) => some none
    | _ => none
  | none => none

/-- Call 1 returns the response that was taken first; call 0 waits; then its response comes. -/
example : (RpcState.after rpcDemo (rpcRun ++ [.wake 0, .wake 1])).result 1 = some (some 2) ∧
    (RpcState.after rpcDemo (rpcRun ++ [.wake 0, .wake 1])).result 0 = none ∧
    (RpcState.after rpcDemo (rpcRun ++ [.wake 0, .wake 1])).next ≤ 2 ^ 64 ∧
    (RpcState.after rpcDemo (rpcRun ++ [.receive 0 5 (rpcDemoUrl ++ "/0".toList) [1, 1, 1], .take 0, .wake 0])).result 0 = some (some 3) := by
  decide +kernel

/-- Call 0 waits in this run. -/
example : ∃ x, Waiting (RpcState.after rpcDemo rpcRun) 0 x ∧ x.sid = 5 ∧ x.rid = 0 := by
  refine ⟨⟨5, 7, 0, .sent⟩, ⟨rfl, rfl, rfl⟩, rfl, rfl⟩

/-- Closing session 5, and more calls, leave it waiting for ever. -/
example (n : Nat) : NoResponse rpcDemo (RpcState.after rpcDemo rpcRun) (.closed 5 :: List.replicate n (.wake 0)) ⟨5, 7, 0, .sent⟩ := by
  constructor
  · intro k t h
    obtain ⟨sid, url, content, hm, -⟩ := (rpcInv rpcDemo rpcRun (by decide +kernel)).taken k t h
    have h012 : k = 0 ∨ k = 1 ∨ k = 2 := by
      simp only [rpcRun, List.mem_cons, reduceCtorEq, false_or, RpcEvent.receive.injEq, List.not_mem_nil, or_false] at hm
      omega
    rcases h012 with rfl | rfl | rfl <;> cases h
  · intro k url content ty m h
    simp [List.mem_replicate] at h

/-- A call whose request is about to be sent. -/
example : ((RpcState.after rpcDemo [.start 0 5 7, .insert 0]).calls 0).isSome ∧ (RpcState.after rpcDemo [.start 0 5 7, .insert 0, .send 0 false]).result 0 = some none := by
  decide +kernel

/-- Call 0 waits on session 5 and `n` more calls start on session 6. -/
def rpcMany (n : Nat) : List RpcEvent := [.start 0 5 7, .insert 0, .send 0 true] ++ (List.range n).map (fun i => .start (i + 1) 6 7)

theorem rpcMany_state (n : Nat) : (RpcState.after rpcDemo (rpcMany n)).next = n + 1 ∧ (RpcState.after rpcDemo (rpcMany n)).calls 0 = some ⟨5, 7, 0, .sent⟩ ∧
    (RpcState.after rpcDemo (rpcMany n)).map ⟨5, 0⟩ = some ⟨0, 7⟩ ∧ ∀ c, n < c → (RpcState.after rpcDemo (rpcMany n)).calls c = none := by
  induction n with
  | zero =>
    refine ⟨rfl, rfl, rfl, fun c hc => ?_⟩
    show (RpcState.after rpcDemo [.start 0 5 7, .insert 0, .send 0 true]).calls c = none
    have : c ≠ 0 := by omega
    simp [RpcState.after, RpcState.step, RpcState.new, RpcState.setCall, RpcState.insert, RpcState.setMap, this]
  | succ n ih =>
    obtain ⟨h1, h2, h3, h4⟩ := ih
    have he : rpcMany (n + 1) = rpcMany n ++ [.start (n + 1) 6 7] := by simp [rpcMany, List.range_succ]
    rw [he, RpcState.after_snoc]
    simp only [RpcState.step, h4 (n + 1) (by omega)]
    refine ⟨by simp [h1], by simp [RpcState.setCall, h2], by simp [RpcState.setCall, h3], fun c hc => ?_⟩
    have : c ≠ n + 1 := by omega
    simp [RpcState.setCall, this, h4 c (by omega)]

/-- The case of `C66_reused_id` is reached: after 2^64 - 1 further calls the next one on session 5 gets the id of call 0. -/
example (b : Nat) (hb : b = 2 ^ 64) : ∃ evs x x2, (RpcState.after rpcDemo evs).calls 0 = some x ∧ x.phase = .sent ∧
    (RpcState.after rpcDemo evs).map x.key = some ⟨0, x.ty⟩ ∧ (RpcState.after rpcDemo evs).calls b = some x2 ∧ x2.phase = .drawn ∧ x2.key = x.key := by
  have hz : 0 ≠ b := by omega
  have hr : UInt64.ofNat b = 0 := UInt64.toNat_inj.mp (by rw [UInt64.toNat_ofNat', hb]; rfl)
  clear hb
  obtain ⟨h1, h2, h3, h4⟩ := rpcMany_state (b - 1)
  refine ⟨rpcMany (b - 1) ++ [.start b 5 7], ⟨5, 7, 0, .sent⟩, ⟨5, 7, b, .drawn⟩, ?_⟩
  rw [RpcState.after_snoc]
  simp only [RpcState.step, h4 b (by omega), h1]
  refine ⟨by simp [RpcState.setCall, hz, h2], trivial, ?_, ?_, trivial, ?_⟩
  · exact h3
  · simp [RpcState.setCall]; omega
  · show (⟨5, UInt64.ofNat b⟩ : RpcKey) = ⟨5, UInt64.ofNat 0⟩
    rw [hr]; rfl

end Huobi
