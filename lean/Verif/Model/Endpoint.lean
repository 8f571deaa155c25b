import Verif.Model.Types
/-
Model of `core/network/src/endpoint.rs` and of the lookup in `core/network/src/reactor/router.rs`.
A string is the list of its characters; `str::len` counts bytes.
-/
namespace Huobi

abbrev Str := List Char

/-- `str::len`: the number of bytes in UTF-8. -/
def strLen (s : Str) : Nat := (s.map Char.utf8Size).sum

/-- `str::split('/')`. -/
def splitSlash : Str → List Str
  | [] => [[]]
  | c :: cs =>
    if c = '/' then [] :: splitSlash cs
    else
      match splitSlash cs with
      | [] => [[c]]
      | x :: xs => (c :: x) :: xs

/-- The non-empty components of a url: endpoint.rs:62-65, 107-110. -/
def urlComps (s : Str) : List Str := (splitSlash s).filter (fun c => !c.isEmpty)

/-- endpoint.rs:12-14. -/
def gossipScheme : Str := "/gossip".toList
def rpcCallScheme : Str := "/rpc_call".toList
def rpcRespScheme : Str := "/rpc_resp".toList

/-- endpoint.rs:16. -/
def maxEndpointLength : Nat := 120

/-- `EndpointScheme`: endpoint.rs:19-28. -/
inductive Scheme where
  | gossip | rpcCall | rpcResp
deriving DecidableEq

/-- Errors of the network component. -/
inductive NetErr where
  | notEndpoint
  | unexpectedScheme
  | notIdString
  | noReactor
  | unknownRpc
  | unexpectedSender
  | noSession
  | noRpcId
  | send
  | dropped
  | badMessage
  | handler
deriving DecidableEq

/-- `Endpoint`: endpoint.rs:38-40. -/
structure Endpoint where
  url : Str
deriving DecidableEq

/-- `Endpoint::from_str`: endpoint.rs:91-120. -/
def Endpoint.parse (s : Str) : Except NetErr Endpoint :=
  if s.isEmpty || decide (maxEndpointLength < strLen s) then .error .notEndpoint
  else if !gossipScheme.isPrefixOf s && !rpcCallScheme.isPrefixOf s && !rpcRespScheme.isPrefixOf s then .error .unexpectedScheme
  else if (urlComps s).length < 3 ∨ 4 < (urlComps s).length then .error .notEndpoint
  else .ok ⟨s⟩

/-- `scheme`: endpoint.rs:46-56; `none` is the `unreachable!()`. -/
def Endpoint.scheme (e : Endpoint) : Option Scheme :=
  if gossipScheme.isPrefixOf e.url then some .gossip
  else if rpcCallScheme.isPrefixOf e.url then some .rpcCall
  else if rpcRespScheme.isPrefixOf e.url then some .rpcResp
  else none

/-- `root`: endpoint.rs:59-68; `none` is an index out of bounds. -/
def Endpoint.root (e : Endpoint) : Option Str :=
  match urlComps e.url with
  | a :: b :: c :: _ => some ('/' :: a ++ '/' :: b ++ '/' :: c)
  | _ => none

/-- `extend`: endpoint.rs:74-78. -/
def Endpoint.extend (e : Endpoint) (comp : Str) : Except NetErr Endpoint :=
  Endpoint.parse (e.url ++ '/' :: comp.dropWhile (· == '/'))

/-- A decimal digit. -/
def decDigit (n : Nat) : Char := Char.ofNat (48 + n)

/-- `u64::to_string`. -/
def showNat (n : Nat) : Str :=
  if n < 10 then [decDigit n] else showNat (n / 10) ++ [decDigit (n % 10)]

/-- The value of a digit. -/
def digitVal (c : Char) : Option Nat := if '0' ≤ c ∧ c ≤ '9' then some (c.toNat - 48) else none

/-- Read digits from the left, with the check for overflow. -/
def readDec : Nat → Str → Option Nat
  | acc, [] => some acc
  | acc, c :: cs =>
    match digitVal c with
    | none => none
    | some d => if acc * 10 + d < 2 ^ 64 then readDec (acc * 10 + d) cs else none

/-- `str::parse::<u64>`: an optional `+`, then at least one digit. -/
def parseU64 (s : Str) : Option UInt64 :=
  let ds := match s with
    | '+' :: r => r
    | r => r
  if ds.isEmpty then none else (readDec 0 ds).map UInt64.ofNat

/-- `RpcEndpoint::extract_rpc_id_from`: endpoint.rs:151-168. -/
def Endpoint.rpcId (e : Endpoint) : Except NetErr UInt64 :=
  if '/' ∈ e.url then
    let rid := (e.url.reverse.takeWhile (· != '/')).reverse
    if rid.isEmpty then .error .notEndpoint
    else
      match parseU64 rid with
      | some r => .ok r
      | none => .error .notIdString
  else .error .notEndpoint

/-- The reactors: `HashMap<Endpoint, _>`, where equality and hash of endpoints are those of the roots (endpoint.rs:82-94). -/
abbrev Reactors (R : Type) := List (Endpoint × R)

/-- `register_reactor`: router.rs:57-64. -/
def Reactors.register {R : Type} (m : Reactors R) (e : Endpoint) (r : R) : Reactors R := (e, r) :: m.filter (fun x => x.1.root != e.root)

/-- The lookup in `route_raw_message`: router.rs:75-79. -/
def Reactors.route {R : Type} (m : Reactors R) (url : Str) : Except NetErr R :=
  match Endpoint.parse url with
  | .error e => .error e
  | .ok e =>
    match m.find? (fun x => x.1.root == e.root) with
    | some (_, r) => .ok r
    | none => .error .noReactor

end Huobi
