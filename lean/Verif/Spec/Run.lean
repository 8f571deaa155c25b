/-
Running a sequence of calls.
-/
namespace Huobi

/-- The answers to a sequence of calls, and the final state. -/
def callAll {S O R : Type} (step : S → O → R × S) : S → List O → List R × S
  | s, [] => ([], s)
  | s, o :: os =>
    let (r, s1) := step s o
    let (rs, s2) := callAll step s1 os
    (r :: rs, s2)

end Huobi
