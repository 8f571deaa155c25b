import Verif.Model.Launch
import Verif.Props.Startup
/-
C120: a node runs with the configuration and the genesis that the operator names.
-/
namespace Huobi

/-! ### Specification -/

/-- The bytes that the operator means by a name: a name that starts with "http" is an address, any other one a file. -/
def Outside.Means (o : Outside) (name : Str) (b : Bytes) : Prop :=
  ((∃ rest, name = 'h' :: 't' :: 't' :: 'p' :: rest) ∧ ∃ status, o.http name = some (status, b)) ∨
  ((¬ ∃ rest, name = 'h' :: 't' :: 't' :: 'p' :: rest) ∧ o.file name = some b)

/-! ### Proofs -/

theorem http_prefix (name : Str) : "http".toList.isPrefixOf name = true ↔ ∃ rest, name = 'h' :: 't' :: 't' :: 'p' :: rest := by
  rw [List.isPrefixOf_iff_prefix]
  constructor
  · rintro ⟨rest, rfl⟩; exact ⟨rest, rfl⟩
  · rintro ⟨rest, rfl⟩; exact ⟨rest, rfl⟩

theorem parseReader_ok {T : Type} {toml : Bytes → Option T} {b : Bytes} {f : T} : parseReader toml b = .ok f ↔ toml b = some f := by
  unfold parseReader
  cases toml b <;> simp

/-- **C120, the configuration**: it is read successfully if and only if the bytes under the name are a configuration, and then it is that one. -/
theorem C120_config {T : Type} (o : Outside) (toml : Bytes → Option T) (name : Str) (f : T) :
    parseConfig o toml name = .ok f ↔ ∃ b, o.Means name b ∧ toml b = some f := by
  unfold parseConfig
  by_cases h : "http".toList.isPrefixOf name = true
  · rw [if_pos h]
    have hp := (http_prefix name).1 h
    unfold parseHttp
    constructor
    · cases hh : o.http name with
      | none => intro hf; cases hf
      | some x => obtain ⟨st, b⟩ := x; intro hf; exact ⟨b, .inl ⟨hp, st, hh⟩, parseReader_ok.1 hf⟩
    · rintro ⟨b, ⟨-, st, hb⟩ | ⟨hn, -⟩, hf⟩
      · rw [hb]; exact parseReader_ok.2 hf
      · exact absurd hp hn
  · rw [if_neg h]
    have hp : ¬ ∃ rest, name = 'h' :: 't' :: 't' :: 'p' :: rest := fun hh => h ((http_prefix name).2 hh)
    unfold parseFile
    constructor
    · cases hh : o.file name with
      | none => intro hf; cases hf
      | some b => intro hf; exact ⟨b, .inr ⟨hp, hh⟩, parseReader_ok.1 hf⟩
    · rintro ⟨b, ⟨hn, -⟩ | ⟨-, hb⟩, hf⟩
      · exact absurd hn hp
      · rw [hb]; exact parseReader_ok.2 hf

/-- **C120, part.**  A process that starts a node was given a configuration and a genesis, read from what the arguments name (without an argument: from the
files of the chain of the developers), and the node is as the configuration describes. -/
theorem C120_launch_partial {fx : Fixed} {w : World0} {o : Outside} {toml : Bytes → Option FileCfg} {json : Bytes → Option Genesis} {config genesis : Option Str}
    {s s' : Store} {t t' : StateDB} {st : Started} (h : launch fx w o toml json config genesis s t = (.ok st, s', t')) :
    ∃ b f gb g, o.Means (config.getD "./devtools/chain/config.toml".toList) b ∧ toml b = some f ∧
      o.file (genesis.getD "./devtools/chain/genesis.json".toList) = some gb ∧ json gb = some g ∧
      boot fx w f g s t = (.ok st, s', t') ∧ AsWritten fx w f st := by
  unfold launch at h
  split at h
  · cases h
  · rename_i f hf
    obtain ⟨b, hb, hf⟩ := (C120_config ..).1 hf
    split at h
    · cases h
    · split at h
      · cases h
      · rename_i g hg
        obtain ⟨gb, h1, h2⟩ := Option.bind_eq_some_iff.1 hg
        split at h
        · cases h
        · rename_i st1 s1 t1 hboot
          cases h
          exact ⟨b, f, gb, g, hb, hf, h1, h2, hboot, C92_as_configured_partial (by rw [hboot])⟩

/-- What is elsewhere does not matter: two outsides that agree on what the arguments name start alike. -/
theorem C120_nothing_else {fx : Fixed} {w : World0} {o o' : Outside} {toml : Bytes → Option FileCfg} {json : Bytes → Option Genesis} {config genesis : Option Str}
    {s : Store} {t : StateDB} (h1 : ∀ b, o.Means (config.getD "./devtools/chain/config.toml".toList) b ↔ o'.Means (config.getD "./devtools/chain/config.toml".toList) b)
    (h2 : o.file (genesis.getD "./devtools/chain/genesis.json".toList) = o'.file (genesis.getD "./devtools/chain/genesis.json".toList)) (st : Started) (s' : Store) (t' : StateDB) :
    launch fx w o toml json config genesis s t = (.ok st, s', t') ↔ launch fx w o' toml json config genesis s t = (.ok st, s', t') := by
  have key : ∀ {o o' : Outside}, (∀ b, o.Means (config.getD "./devtools/chain/config.toml".toList) b ↔ o'.Means (config.getD "./devtools/chain/config.toml".toList) b) →
      o.file (genesis.getD "./devtools/chain/genesis.json".toList) = o'.file (genesis.getD "./devtools/chain/genesis.json".toList) →
      launch fx w o toml json config genesis s t = (.ok st, s', t') → launch fx w o' toml json config genesis s t = (.ok st, s', t') := by
    intro o o' h1 h2 h
    have h0 := h
    unfold launch at h ⊢
    cases hf : parseConfig o toml (configArg config) with
    | error e => rw [hf] at h; cases h
    | ok f =>
      have hf' : parseConfig o' toml (configArg config) = .ok f := by
        obtain ⟨b, hb, hbf⟩ := (C120_config ..).1 hf
        exact (C120_config ..).2 ⟨b, (h1 b).1 hb, hbf⟩
      rw [hf] at h
      rw [hf']
      have : o'.file (genesisArg genesis) = o.file (genesisArg genesis) := h2.symm
      simp only [this]
      exact h
  exact ⟨key h1 h2, key (fun b => (h1 b).symm) h2.symm⟩

/-- **C120: the genesis file is needed for every start**, also when there is a chain and its contents have no effect (C92_genesis_file_ignored). -/
theorem C120_genesis_needed {fx : Fixed} {w : World0} {o : Outside} {toml : Bytes → Option FileCfg} {json : Bytes → Option Genesis} {config genesis : Option Str}
    {s : Store} {t : StateDB} (h : o.file (genesis.getD "./devtools/chain/genesis.json".toList) = none) :
    ∀ st s' t', launch fx w o toml json config genesis s t ≠ (.ok st, s', t') := by
  intro st s' t' hh
  obtain ⟨_, _, gb, _, -, -, h1, -⟩ := C120_launch_partial hh
  rw [h] at h1
  cases h1

/-- **C120, whole for processes that start**: a process starts a node if and only if the arguments name a configuration and a genesis that can be read and a
node starts with these (`boot`, C92). -/
theorem C120_started_iff {fx : Fixed} {w : World0} {o : Outside} {toml : Bytes → Option FileCfg} {json : Bytes → Option Genesis} {config genesis : Option Str}
    {s s' : Store} {t t' : StateDB} {st : Started} : launch fx w o toml json config genesis s t = (.ok st, s', t') ↔
    ∃ b f gb g, o.Means (config.getD "./devtools/chain/config.toml".toList) b ∧ toml b = some f ∧
      o.file (genesis.getD "./devtools/chain/genesis.json".toList) = some gb ∧ json gb = some g ∧ boot fx w f g s t = (.ok st, s', t') := by
  constructor
  · intro h
    obtain ⟨b, f, gb, g, h1, h2, h3, h4, h5, -⟩ := C120_launch_partial h
    exact ⟨b, f, gb, g, h1, h2, h3, h4, h5⟩
  · rintro ⟨b, f, gb, g, h1, h2, h3, h4, h5⟩
    have hc : parseConfig o toml (configArg config) = .ok f := (C120_config ..).2 ⟨b, h1, h2⟩
    have hg : (o.file (genesisArg genesis)).bind json = some g := by
      have : o.file (genesisArg genesis) = some gb := h3
      rw [this]; exact h4
    unfold launch
    rw [hc]
    simp only [hg]
    cases hi : parseIdentity fx w f with
    | error e => unfold boot at h5; rw [hi] at h5; cases h5
    | ok x => simp only [h5]

/-- **C120: a process that does not get so far leaves the data as it was.** -/
theorem C120_unread_untouched {fx : Fixed} {w : World0} {o : Outside} {toml : Bytes → Option FileCfg} {json : Bytes → Option Genesis} {config genesis : Option Str}
    {s : Store} {t : StateDB} (h : ¬ ∃ b f gb g, o.Means (config.getD "./devtools/chain/config.toml".toList) b ∧ toml b = some f ∧
      o.file (genesis.getD "./devtools/chain/genesis.json".toList) = some gb ∧ json gb = some g) :
    ∃ e, launch fx w o toml json config genesis s t = (.error e, s, t) := by
  unfold launch
  cases hc : parseConfig o toml (configArg config) with
  | error e => exact ⟨_, rfl⟩
  | ok f =>
    obtain ⟨b, hb, hf⟩ := (C120_config ..).1 hc
    cases hi : parseIdentity fx w f with
    | error e => exact ⟨.start e, by simp only [hi]⟩
    | ok x =>
      cases hg : (o.file (genesisArg genesis)).bind json with
      | none => exact ⟨.genesisFile, by simp only [hi]⟩
      | some g =>
        obtain ⟨gb, h1, h2⟩ := Option.bind_eq_some_iff.1 hg
        exact absurd ⟨b, f, gb, g, hb, hf, h1, h2⟩ h

/-! ### Refutations -/

namespace Demo

/-- A configuration in a file whose name starts with "http", and a server that answers everything with status 404 and the same text. -/
def outside : Outside where
  file := fun n => if n = "https.toml".toList then some [1] else if n = "./devtools/chain/genesis.json".toList then some [2] else none
  http := fun n => if n = "http://host/none.toml".toList then some (404, [1]) else none

def demoToml : Bytes → Option FileCfg := fun b => if b = [1] then some (file "09" 1337) else none
def demoJson : Bytes → Option Genesis := fun b => if b = [2] then some ngenesis else none

def launched (name : String) : Except MainAbort Started := (launch fixed world0 outside demoToml demoJson (some name.toList) none Store.empty PMap.empty).1

end Demo

/-- **C120 as stated is false: files whose name starts with "http"** are never read: the node does not start, although the file is there and its contents are a
usable configuration. -/
theorem C120_file_name_refuted : (Demo.outside.file "https.toml".toList).bind Demo.demoToml = some (Demo.file "09" 1337) ∧
    (∃ st, (boot Demo.fixed Demo.world0 (Demo.file "09" 1337) Demo.ngenesis Store.empty PMap.empty).1 = .ok st) ∧
    (match Demo.launched "https.toml" with | .error e => some e | .ok _ => none) = some (.config .reqwest) :=
  ⟨by decide +kernel, Demo.file_starts, by decide +kernel⟩

/-- **C120 as stated is false: error pages.**  The body of a response that says that there is no such document is taken for the configuration. -/
theorem C120_status_refuted : Demo.outside.http "http://host/none.toml".toList = some (404, [1]) ∧
    ∃ st, Demo.launched "http://host/none.toml" = .ok st :=
  ⟨by decide +kernel, Demo.ok_of_isSome (by decide +kernel)⟩

/-- The hypothesis of `C120_launch_partial` is met. -/
example : ∃ st s' t', launch Demo.fixed Demo.world0 Demo.outside Demo.demoToml Demo.demoJson (some "http://host/none.toml".toList) none Store.empty PMap.empty =
    (.ok st, s', t') := by
  obtain ⟨st, h⟩ := C120_status_refuted.2
  unfold Demo.launched at h
  generalize launch Demo.fixed Demo.world0 Demo.outside Demo.demoToml Demo.demoJson (some "http://host/none.toml".toList) none Store.empty PMap.empty = x at h
  obtain ⟨a, s, t⟩ := x
  exact ⟨st, s, t, by rw [← h]⟩

/-- That of `C120_genesis_needed` is met by a file system without the file. -/
example : ({ Demo.outside with file := fun _ => none } : Outside).file ((none : Option Str).getD "./devtools/chain/genesis.json".toList) = none := rfl

/-- The hypothesis of `C120_unread_untouched` is met where there is no file at all. -/
example : ¬ ∃ b f gb g, ({ file := fun _ => none, http := fun _ => none } : Outside).Means ((none : Option Str).getD "./devtools/chain/config.toml".toList) b ∧
    Demo.demoToml b = some f ∧ ({ file := fun _ => none, http := fun _ => none } : Outside).file ((none : Option Str).getD "./devtools/chain/genesis.json".toList) = some gb ∧
      Demo.demoJson gb = some g := by
  rintro ⟨_, _, _, _, -, -, h, -⟩
  cases h

end Huobi
