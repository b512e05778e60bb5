import Verif.Model.Handed

/-! # Specification: what callers do with the maps that `GetPolicyCache` handed out -/

namespace Athenz
namespace Spec

/-- The same schedule without the callers. -/
def withoutUsers (h : List GAct) : List GAct :=
  h.filter (fun a => match a with | .daemon _ => true | .user _ => false)

/-- Checks find the same, and every check can return the same. -/
def SameDecisions (s t : PState) : Prop :=
  (∀ k, s.seen k = t.seen k) ∧
  ∀ (U : CaseFns) (q : CheckReq) (sched : List CheckAct) (r : Res (List Str)),
    CheckReturns U q s.policies sched r ↔ CheckReturns U q t.policies sched r

/-- The caller writes nothing but their map and memory of their own: an append finds no room behind the slice, an element that is written
belongs to a slice of their own, and a field that is written belongs to a record of their own. -/
def OwnMemory (s : PState) : UAct → Prop
  | .append m k _ => ∀ sl A, (s.maps[m]?).bind (· k) = some (.shared sl) → s.core.heap[sl.arr]? = some A → A.cells.length ≤ sl.len
  | .cell m k _ _ => ∀ sl, (s.maps[m]?).bind (· k) ≠ some (.shared sl)
  | .field m k i _ => ∀ cs, s.held m k = some cs → ∀ n, cs[i]? ≠ some (.ptr n)
  | _ => True

/-- Throughout the run callers write nothing but their maps and memory of their own. -/
def OnlyOwn (U : CaseFns) (h : List GAct) : Prop :=
  ∀ pre a post s, h = pre ++ .user a :: post → gRun U gInit pre = some s → OwnMemory s a

/-- The pointer `c` is what a caller writes with `v`: nil, a pointer to a new record, or the pointer that they found. -/
def WrittenCell (s s' : PState) (v : UVal) (c : Cell) : Prop :=
  match v with
  | .nil => c = .nil ∧ s'.mine = s.mine
  | .fresh x => s'.deref c = some x ∧ s'.mine = s.mine ++ [x]
  | .found m k i => (s.held m k).bind (·[i]?) = some c ∧ s'.mine = s.mine

/-- The language: what a caller finds in their map after a statement. -/
def CallerSees (s s' : PState) : UAct → Prop
  | .hand => s'.maps.length = s.maps.length + 1
  | .del m k => s'.held m k = none
  | .copy m k k' => s'.held m k' = s.held m k
  | .lit m k xs => m < s.maps.length → (s'.held m k).map (·.map s'.deref) = some (xs.map some)
  | .reslice m k n => ∃ l l', s.held m k = some l ∧ s'.held m k = some l' ∧ l'.length = n ∧ ∀ i < n, i < l.length → l'[i]? = l[i]?
  | .append m k v => ∃ l c, s.held m k = some l ∧ s'.held m k = some (l ++ [c]) ∧ WrittenCell s s' v c
  | .cell m k i v => ∃ l c, s.held m k = some l ∧ i < l.length ∧ s'.held m k = some (l.set i c) ∧ WrittenCell s s' v c
  | .field m k i x => ∃ l c, s.held m k = some l ∧ s'.held m k = some l ∧ l[i]? = some c ∧ c ≠ .nil ∧ (s.deref c ≠ none → s'.deref c = some x)

/-- The caller edits the map and appends to its slices; they write no element, no field, and do not cut slices. -/
def AppendOnly : GAct → Prop
  | .user (.reslice ..) => False
  | .user (.cell ..) => False
  | .user (.field ..) => False
  | _ => True

/-- Every deny of the first is at the same place of the second, with the same elements in front of it. -/
def KeepsDenies (l l' : List (Option Assertion)) : Prop :=
  ∀ (i : Nat) (a : Assertion), l[i]? = some (some a) → a.effect ≠ none → ∀ j ≤ i, l'[j]? = l[j]?

end Spec
end Athenz
