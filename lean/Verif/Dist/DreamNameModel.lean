/-
Model of the choice of the distribution and of the momentum grid in the reader of DREAM output.

Source: /repo/src/DistributionFunction/DREAMDistributionFunction.cpp 90-118 (beginning of `__Load`).

Names are lists of characters; `has` says which variables the file has.
-/

namespace Softlib.Dist.Dream

/-- Outcome. -/
inductive DName where
  /-- `SOFTLibException` -/
  | throws
  /-- `std::out_of_range`, which is no `SOFTLibException` -/
  | outOfRange
  | ok (name grid : List Char)
  deriving DecidableEq

/-- `s.substr(l-k)` with `l = s.length()`; `none`: `std::out_of_range`.  For `k > l` the difference `l-k` of unsigned numbers wraps
around to `2^64+l-k`, which is larger than `l` because lengths are below `2^63`; so the position is out of range exactly for `k > l`. -/
def substrEnd (s : List Char) (k : Nat) : Option (List Char) := if s.length < k then none else some (s.drop (s.length - k))

def fRe : List Char := ['f', '_', 'r', 'e']
def fHot : List Char := ['f', '_', 'h', 'o', 't']
def eqsys : List Char := ['/', 'e', 'q', 's', 'y', 's', '/']
def runawayGrid : List Char := "/grid/runaway".toList
def hottailGrid : List Char := "/grid/hottail".toList

/-- Lines 110-118. -/
def momGrid (dname : List Char) : DName :=
  match substrEnd dname 4 with
  | none => .outOfRange
  | some t =>
    if t = fRe then .ok dname runawayGrid
    else
      match substrEnd dname 5 with
      | none => .outOfRange
      | some t =>
        if t = fHot then .ok dname hottailGrid else .throws

/-- Lines 107-118: the variable has to exist. -/
def withGrid (has : List Char → Bool) (dname : List Char) : DName := if has dname then momGrid dname else .throws

/-- Lines 94-118. -/
def dreamName (has : List Char → Bool) (distname : List Char) : DName :=
  match distname with
  | [] =>
    if has (eqsys ++ fRe) then withGrid has (eqsys ++ fRe)
    else if has (eqsys ++ fHot) then withGrid has (eqsys ++ fHot)
    else .throws
  | c :: rest => if c ≠ '/' then withGrid has (eqsys ++ c :: rest) else withGrid has (c :: rest)

end Softlib.Dist.Dream
