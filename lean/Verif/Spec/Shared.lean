import Verif.Model.Shared

/-! # What callers see of principals -/

namespace Athenz.Spec

/-- What the getters of the principal show that call `i` returned. -/
def seen (s : MState) (i : Nat) : Option Principal := ((s.ret i).bind s.objs).map (·.read s.heap)

/-- No caller sets an element of a slice that it got. -/
def NoWrite (acts : List MAct) : Prop := ∀ m idx v, MAct.write m idx v ∉ acts

/-- What the library does. -/
def libActs : List MAct → List AAct
  | [] => []
  | .lib act _ :: as => act :: libActs as
  | _ :: as => libActs as

/-- No append finds room in the array of its slice. -/
def Clipped (cfg : AuthCfg) (s : MState) (acts : List MAct) : Prop :=
  ∀ pre m v spare post s1 sl l, acts = pre ++ .append m v spare :: post → mRun cfg s pre = some s1 → s1.mine[m]? = some (sl, l) →
    sl.len = ((s1.heap[sl.arr]?).getD []).length

end Athenz.Spec
