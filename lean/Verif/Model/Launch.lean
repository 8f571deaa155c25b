import Verif.Model.Startup
/-
How a node comes to its configuration and genesis: common/config-parser/src/lib.rs and the first part of src/main.rs.
The readers of TOML and JSON are functions of the bytes (parameters); a file is there with contents that can be read, or not.  An HTTP request
gets a response with a status and a body, or fails (`reqwest::get` returns an error only if there is no response: a response of any status is
one).  A body that breaks off while it is read is a request that fails.
-/
namespace Huobi

/-- What a process can read: files and HTTP. -/
structure Outside where
  file : Str → Option Bytes
  http : Str → Option (Nat × Bytes)

/-- `ParseError`: common/config-parser/src/lib.rs:43-47. -/
inductive ParseErr where
  | io | deserialize | reqwest
deriving DecidableEq

/-- `parse_reader`: common/config-parser/src/lib.rs:10-14; the reader has been read to its end. -/
def parseReader {T : Type} (toml : Bytes → Option T) (buf : Bytes) : Except ParseErr T :=
  match toml buf with
  | none => .error .deserialize
  | some x => .ok x

/-- `parse_file`: common/config-parser/src/lib.rs:19-22. -/
def parseFile {T : Type} (o : Outside) (toml : Bytes → Option T) (name : Str) : Except ParseErr T :=
  match o.file name with
  | none => .error .io
  | some b => parseReader toml b

/-- `parse_http`: common/config-parser/src/lib.rs:28-31.  The status is not looked at. -/
def parseHttp {T : Type} (o : Outside) (toml : Bytes → Option T) (name : Str) : Except ParseErr T :=
  match o.http name with
  | none => .error .reqwest
  | some (_, b) => parseReader toml b

/-- `parse`: common/config-parser/src/lib.rs:35-41. -/
def parseConfig {T : Type} (o : Outside) (toml : Bytes → Option T) (name : Str) : Except ParseErr T :=
  if "http".toList.isPrefixOf name then parseHttp o toml name else parseFile o toml name

/-- The arguments of the command line with their defaults: src/main.rs:46-56, 61. -/
def configArg (arg : Option Str) : Str := arg.getD "./devtools/chain/config.toml".toList
def genesisArg (arg : Option Str) : Str := arg.getD "./devtools/chain/genesis.json".toList

/-- Why a process ends. -/
inductive MainAbort where
  | config (e : ParseErr)
  | genesisFile
  | start (e : Abort)
deriving DecidableEq

/-- `main`: src/main.rs:42-67, `handle_init`: 69-80: reads the configuration, checks key and chain id, reads the genesis, and starts (`boot`). -/
def launch (fx : Fixed) (w : World0) (o : Outside) (toml : Bytes → Option FileCfg) (json : Bytes → Option Genesis) (config genesis : Option Str)
    (store : Store) (tries : StateDB) : Except MainAbort Started × Store × StateDB :=
  match parseConfig o toml (configArg config) with
  | .error e => (.error (.config e), store, tries)
  | .ok f =>
    match parseIdentity fx w f with
    | .error e => (.error (.start e), store, tries)
    | .ok _ =>
      match (o.file (genesisArg genesis)).bind json with
      | none => (.error .genesisFile, store, tries)
      | some g =>
        match boot fx w f g store tries with
        | (.error e, s, t) => (.error (.start e), s, t)
        | (.ok st, s, t) => (.ok st, s, t)

end Huobi
