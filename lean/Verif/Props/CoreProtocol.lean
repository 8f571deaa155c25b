import Verif.Model.CoreProtocol
/-
C121: any two nodes speak the same protocols with each other, and messages are sent on one that both handle.
-/
namespace Huobi.Protocols

/-! ### Specification -/

/-- What was given last for a protocol. -/
def Last {H : Type} (calls : List (Kind × H)) (k : Kind) (h : H) : Prop :=
  ∃ before after, calls = before ++ (k, h) :: after ∧ ∀ h', (k, h') ∉ after

/-- The protocols that a process sets up after these calls. -/
def setUp {H : Type} (shw : Nat → Str) (calls : List (Kind × H)) : Except Kind (List (Meta H)) := (calls.foldl Builder.give {}).build shw

/-- The numbers of the four protocols. -/
def number : Kind → Nat
  | .ping => 1 | .identify => 2 | .discovery => 3 | .transmitter => 4

/-! ### Proofs -/

def Builder.get {H : Type} (b : Builder H) : Kind → Option H
  | .ping => b.ping | .identify => b.identify | .discovery => b.discovery | .transmitter => b.transmitter

theorem Builder.get_give {H : Type} (b : Builder H) (k k' : Kind) (h : H) : (b.give (k', h)).get k = if k' = k then some h else b.get k := by
  cases k <;> cases k' <;> rfl

theorem get_setUp {H : Type} (k : Kind) (calls : List (Kind × H)) : ∀ b : Builder H,
    (∀ h, Last calls k h → (calls.foldl Builder.give b).get k = some h) ∧
    ((∀ h, (k, h) ∉ calls) → (calls.foldl Builder.give b).get k = b.get k) := by
  induction calls with
  | nil => intro b; exact ⟨fun h ⟨_, _, e, _⟩ => by simp at e, fun _ => rfl⟩
  | cons c cs ih =>
    intro b
    obtain ⟨k', h'⟩ := c
    constructor
    · rintro h ⟨before, after, e, hn⟩
      cases before with
      | nil =>
        simp only [List.nil_append, List.cons.injEq] at e
        obtain ⟨e1, rfl⟩ := e
        cases e1
        rw [List.foldl_cons, (ih _).2 hn, Builder.get_give, if_pos rfl]
      | cons c before =>
        simp only [List.cons_append, List.cons.injEq] at e
        exact (ih _).1 h ⟨before, after, e.2, hn⟩
    · intro hn
      rw [List.foldl_cons, (ih _).2 (fun h hh => hn h (List.mem_cons_of_mem _ hh)), Builder.get_give, if_neg]
      rintro rfl
      exact hn h' List.mem_cons_self

theorem last_of_mem {H : Type} {k : Kind} (calls : List (Kind × H)) (hm : ∃ h, (k, h) ∈ calls) : ∃ h, Last calls k h := by
  induction calls with
  | nil => obtain ⟨_, h⟩ := hm; cases h
  | cons c cs ih =>
    by_cases hc : ∃ h, (k, h) ∈ cs
    · obtain ⟨h, b, a, e, hn⟩ := ih hc
      exact ⟨h, c :: b, a, by rw [e]; rfl, hn⟩
    · obtain ⟨h, hh⟩ := hm
      rcases List.mem_cons.1 hh with rfl | hh
      · exact ⟨h, [], cs, rfl, fun h' hh' => hc ⟨h', hh'⟩⟩
      · exact absurd ⟨h, hh⟩ hc

theorem Last.mem {H : Type} {k : Kind} {h : H} {calls : List (Kind × H)} (hl : Last calls k h) : (k, h) ∈ calls := by
  obtain ⟨_, _, rfl, -⟩ := hl
  simp

theorem get_some {H : Type} {k : Kind} {h : H} {calls : List (Kind × H)} : (calls.foldl Builder.give {}).get k = some h ↔ Last calls k h := by
  constructor
  · intro hg
    by_cases hm : ∃ h, (k, h) ∈ calls
    · obtain ⟨h', hl⟩ := last_of_mem calls hm
      rw [(get_setUp k calls {}).1 h' hl] at hg
      cases hg; exact hl
    · rw [(get_setUp k calls {}).2 (fun h hh => hm ⟨h, hh⟩)] at hg
      cases k <;> cases hg
  · exact (get_setUp k calls {}).1 h

theorem get_none {H : Type} {k : Kind} {calls : List (Kind × H)} : (calls.foldl Builder.give {}).get k = none ↔ ∀ h, (k, h) ∉ calls := by
  constructor
  · intro hg h hh
    obtain ⟨h', hl⟩ := last_of_mem calls ⟨h, hh⟩
    rw [(get_setUp k calls {}).1 h' hl] at hg
    cases hg
  · intro hn
    rw [(get_setUp k calls {}).2 hn]
    cases k <;> rfl

theorem setUp_ok {H : Type} {shw : Nat → Str} {calls : List (Kind × H)} {ms : List (Meta H)} (h : setUp shw calls = .ok ms) :
    ∃ p i d t, Last calls .ping p ∧ Last calls .identify i ∧ Last calls .discovery d ∧ Last calls .transmitter t ∧ ms = [
      ⟨1, "chain_ping/".toList ++ shw 1, ["0.1".toList], .ping, p⟩, ⟨2, "chain_identify/".toList ++ shw 2, ["0.1".toList], .identify, i⟩,
      ⟨3, "chain_discovery/".toList ++ shw 3, ["0.1".toList], .discovery, d⟩, ⟨4, "chain_transmitter/".toList ++ shw 4, ["0.1".toList], .transmitter, t⟩] := by
  unfold setUp Builder.build at h
  split at h
  · cases h
  · rename_i p hp
    split at h
    · cases h
    · rename_i i hi
      split at h
      · cases h
      · rename_i d hd
        split at h
        · cases h
        · rename_i t ht
          cases h
          exact ⟨p, i, d, t, get_some.1 hp, get_some.1 hi, get_some.1 hd, get_some.1 ht, rfl⟩

/-- **C121, set up**: a process sets up its protocols if and only if it was given every one of the four, in whatever order and however often. -/
theorem C121_set_up {H : Type} (shw : Nat → Str) (calls : List (Kind × H)) : (∃ ms, setUp shw calls = .ok ms) ↔ ∀ k, ∃ h, (k, h) ∈ calls := by
  constructor
  · rintro ⟨ms, h⟩
    obtain ⟨p, i, d, t, h1, h2, h3, h4, -⟩ := setUp_ok h
    rintro (_ | _ | _ | _)
    · exact ⟨p, h1.mem⟩
    · exact ⟨i, h2.mem⟩
    · exact ⟨d, h3.mem⟩
    · exact ⟨t, h4.mem⟩
  · intro h
    cases hb : setUp shw calls with
    | ok ms => exact ⟨ms, rfl⟩
    | error k =>
      exfalso
      unfold setUp Builder.build at hb
      have nn : ∀ k, (calls.foldl Builder.give {}).get k ≠ none := fun k hn => by
        obtain ⟨x, hx⟩ := h k; exact get_none.1 hn x hx
      split at hb
      · rename_i hp; exact nn .ping hp
      · split at hb
        · rename_i hp; exact nn .identify hp
        · split at hb
          · rename_i hp; exact nn .discovery hp
          · split at hb
            · rename_i hp; exact nn .transmitter hp
            · cases hb

/-- Otherwise the process ends and names one that it was not given. -/
theorem C121_missing {H : Type} {shw : Nat → Str} {calls : List (Kind × H)} {k : Kind} (h : setUp shw calls = .error k) : ∀ x, (k, x) ∉ calls := by
  apply get_none.1
  unfold setUp Builder.build at h
  split at h
  · rename_i hp; cases h; exact hp
  · split at h
    · rename_i hp; cases h; exact hp
    · split at h
      · rename_i hp; cases h; exact hp
      · split at h
        · rename_i hp; cases h; exact hp
        · cases h

theorem opened_eq {H : Type} {shw : Nat → Str} (p i d t p' i' d' t' : H) :
    opened (H := H) [⟨1, "chain_ping/".toList ++ shw 1, ["0.1".toList], .ping, p⟩, ⟨2, "chain_identify/".toList ++ shw 2, ["0.1".toList], .identify, i⟩,
      ⟨3, "chain_discovery/".toList ++ shw 3, ["0.1".toList], .discovery, d⟩, ⟨4, "chain_transmitter/".toList ++ shw 4, ["0.1".toList], .transmitter, t⟩]
      [⟨1, "chain_ping/".toList ++ shw 1, ["0.1".toList], .ping, p'⟩, ⟨2, "chain_identify/".toList ++ shw 2, ["0.1".toList], .identify, i'⟩,
      ⟨3, "chain_discovery/".toList ++ shw 3, ["0.1".toList], .discovery, d'⟩, ⟨4, "chain_transmitter/".toList ++ shw 4, ["0.1".toList], .transmitter, t'⟩] =
    [(1, 1, .ping, p', "0.1".toList), (2, 2, .identify, i', "0.1".toList), (3, 3, .discovery, d', "0.1".toList), (4, 4, .transmitter, t', "0.1".toList)] := by
  simp [opened, target, agree, pingId, identifyId, discoveryId, transmitterId]

/-- **C121: what two nodes speak.**  Whatever the two processes gave to their protocols, a dial of one to the other opens exactly the four protocols, each
under the same number and in the same version on both sides, and the other side handles each with what it was given (last) for it. -/
theorem C121_opened {H : Type} {shw : Nat → Str} {calls calls' : List (Kind × H)} {a b : List (Meta H)} (ha : setUp shw calls = .ok a) (hb : setUp shw calls' = .ok b) :
    (opened a b).length = 4 ∧ ∀ k, ∃ h, Last calls' k h ∧ (number k, number k, k, h, "0.1".toList) ∈ opened a b := by
  obtain ⟨p, i, d, t, -, -, -, -, rfl⟩ := setUp_ok ha
  obtain ⟨p', i', d', t', h1, h2, h3, h4, rfl⟩ := setUp_ok hb
  rw [opened_eq]
  refine ⟨rfl, ?_⟩
  rintro (_ | _ | _ | _)
  · exact ⟨p', h1, by simp [number]⟩
  · exact ⟨i', h2, by simp [number]⟩
  · exact ⟨d', h3, by simp [number]⟩
  · exact ⟨t', h4, by simp [number]⟩

/-- **C121: messages.**  Of whichever of the two made the connection, the messages that a node sends are handled by the transmitter of the other one, the one that
it was given last. -/
theorem C121_messages {H : Type} {shw : Nat → Str} {calls calls' : List (Kind × H)} {a b : List (Meta H)} (ha : setUp shw calls = .ok a) (hb : setUp shw calls' = .ok b) :
    (∃ h, Last calls' .transmitter h ∧ sends a b = some (.transmitter, h)) ∧ (∃ h, Last calls .transmitter h ∧ answers a b = some (.transmitter, h)) := by
  obtain ⟨p, i, d, t, -, -, -, h4', rfl⟩ := setUp_ok ha
  obtain ⟨p', i', d', t', -, -, -, h4, rfl⟩ := setUp_ok hb
  exact ⟨⟨t', h4, by unfold sends; rw [opened_eq]; rfl⟩, ⟨t, h4', by unfold answers; rw [opened_eq]; rfl⟩⟩

/-- A node of src/main.rs sets up its protocols, and its transmitter is the one that hands messages to the reactor. -/
theorem C121_node {H : Type} (shw : Nat → Str) (ping ident disc trans : H) :
    (∃ ms, setUp shw (nodeCalls ping ident disc trans) = .ok ms) ∧ ∀ h, Last (nodeCalls ping ident disc trans) .transmitter h ↔ h = trans := by
  constructor
  · rw [C121_set_up]
    rintro (_ | _ | _ | _) <;> simp [nodeCalls]
  · intro h
    constructor
    · intro hl
      have := hl.mem
      simpa [nodeCalls] using this
    · rintro rfl
      exact ⟨[(.ping, ping), (.identify, ident), (.discovery, disc)], [], rfl, by simp⟩

/-- The hypotheses of `C121_opened` and `C121_messages` are met: a node, and a process that gave its protocols in another order and one of them twice. -/
example : ∃ a b, setUp (fun n => (toString n).toList) (nodeCalls 1 2 3 4) = .ok a ∧
    setUp (fun n => (toString n).toList) [(.transmitter, 7), (.ping, 5), (.discovery, 6), (.identify, 9), (.transmitter, 8)] = .ok b ∧
    sends a b = some (.transmitter, 8) ∧ answers a b = some (.transmitter, 4) :=
  ⟨_, _, rfl, rfl, by decide +kernel, by decide +kernel⟩

/-- That of `C121_missing`: a process without discovery. -/
example : setUp (fun n => (toString n).toList) [(.transmitter, 7), (.ping, 5), (.identify, 9)] = .error .discovery := rfl

end Huobi.Protocols
