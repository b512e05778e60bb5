import Verif.Model.Translator
import Verif.Spec.Authority

/-! # What translation rules mean, in terms of the text of the rules -/

namespace Athenz.Spec

/-- A placeholder: something in braces. -/
def IsPh (s : Str) : Prop := ∃ t, t ≠ [] ∧ s = '{' :: (t ++ ['}'])

/-- `ws` are the pieces of `s` between the separators `c`. -/
def SplitInto (c : Char) : Str → List Str → Prop
  | _, [] => False
  | s, [w] => c ∉ w ∧ s = w
  | s, w :: ws => c ∉ w ∧ ∃ t, s = w ++ c :: t ∧ SplitInto c t ws

/-- The path of a rule has the segments `segs` and the query parameters `qm`. -/
def RuleParts (pq : QueryParser) (r : Rule) (segs : List Str) (qm : SMap (List Str)) : Prop :=
  ('?' ∉ r.path ∧ SplitInto '/' r.path segs ∧ qm = []) ∨
  ∃ p q, r.path = p ++ '?' :: q ∧ '?' ∉ p ∧ SplitInto '/' p segs ∧ pq q = some qm

/-- A well formed rule. -/
structure RuleOk (pq : QueryParser) (r : Rule) : Prop where
  method : r.method ≠ []
  action : r.action ≠ []
  resource : r.resource ≠ []
  slash : r.path = [] ∨ ∃ t, r.path = '/' :: t
  parts : ∃ segs qm, RuleParts pq r segs qm ∧ (∀ k vs, (k, vs) ∈ qm → ∃ v, vs = [v]) ∧
    "{}".toList ∉ segs ++ qm.flatMap (·.2) ∧
    -- no placeholder occurs twice
    (segs ++ qm.flatMap (·.2)).Pairwise fun a b => IsPh a → a ≠ b

/-- A well formed set of rules. -/
def RuleSetOk (pq : QueryParser) (rules : Option RuleSet) : Prop :=
  ∃ m, rules = some m ∧ ∀ k v, (k, v) ∈ m → k ≠ [] ∧ ∃ rs, v = some rs ∧ ∀ r ∈ rs, RuleOk pq r

/-- A text of a rule fits a text of a request. -/
def Fits (t s : Str) : Prop := IsPh t ∨ t = s

/-- The rule matches a request whose query has the parameters `rq`. -/
def Matches (pq : QueryParser) (U : CaseFns) (r : Rule) (method path : Str) (rq : SMap (List Str)) : Prop :=
  r.method.map U.lower = method.map U.lower ∧
  ∃ segs qm reqSegs, RuleParts pq r segs qm ∧ SplitInto '/' path reqSegs ∧ Aligned Fits segs reqSegs ∧
    (∀ k, (∃ vs, (k, vs) ∈ qm) ↔ ∃ ws, (k, ws) ∈ rq) ∧
    ∀ k vs ws, (k, vs) ∈ qm → (k, ws) ∈ rq → ∃ v w, vs = [v] ∧ ws = [w] ∧ Fits v w

/-- The method and the number of path segments agree. -/
def SameShape (pq : QueryParser) (U : CaseFns) (r : Rule) (method path : Str) : Prop :=
  r.method.map U.lower = method.map U.lower ∧
  ∃ segs qm reqSegs, RuleParts pq r segs qm ∧ SplitInto '/' path reqSegs ∧ segs.length = reqSegs.length

/-- The placeholder `n` of the rule stands for `v` in the request. -/
def Binds (pq : QueryParser) (r : Rule) (path : Str) (rq : SMap (List Str)) (n v : Str) : Prop :=
  IsPh n ∧ ∃ segs qm reqSegs, RuleParts pq r segs qm ∧ SplitInto '/' path reqSegs ∧
    ((∃ i : Nat, segs[i]? = some n ∧ reqSegs[i]? = some v) ∨ ∃ k, (k, [n]) ∈ qm ∧ (k, [v]) ∈ rq)

/-- `t` is `s` with the occurrences of `old`, from left to right, replaced by `new`. -/
inductive Replaced (old new : Str) : Str → Str → Prop where
  | none {s : Str} : (∀ a b, s ≠ a ++ old ++ b) → Replaced old new s s
  | first {a b t : Str} : (∀ a' b', a ++ old ++ b = a' ++ old ++ b' → a.length ≤ a'.length) → Replaced old new b t →
      Replaced old new (a ++ old ++ b) (a ++ new ++ t)

/-- `t` is `s` after one replacement after the other. -/
def ReplacedAll : List (Str × Str) → Str → Str → Prop
  | [], s, t => t = s
  | (n, v) :: l, s, t => ∃ u, Replaced n v s u ∧ ReplacedAll l u t

/-- `t` is the rule's resource with all placeholders replaced, in some order. -/
def Substituted (pq : QueryParser) (r : Rule) (path : Str) (rq : SMap (List Str)) (t : Str) : Prop :=
  ∃ l : List (Str × Str), (l.map (·.1)).Nodup ∧ (∀ n v, (n, v) ∈ l ↔ Binds pq r path rq n v) ∧ ReplacedAll l r.resource t

/-- A piece of a template: a literal text or the placeholder with the given text in braces. -/
inductive Tok where
  | lit (s : Str)
  | var (n : Str)
deriving DecidableEq, Repr

/-- The text of a piece. -/
def Tok.text : Tok → Str
  | .lit s => s
  | .var n => '{' :: (n ++ ['}'])

/-- Literals have no opening brace, placeholders no braces inside. -/
def Tok.Ok : Tok → Prop
  | .lit s => '{' ∉ s
  | .var n => '{' ∉ n ∧ '}' ∉ n

/-- `s` is a template with the pieces `ts`. -/
def Template (s : Str) (ts : List Tok) : Prop := s = ts.flatMap Tok.text ∧ ∀ t ∈ ts, t.Ok

/-- What a piece becomes: a placeholder its value, if it has one. -/
def Becomes (binds : Str → Str → Prop) (t : Tok) (s : Str) : Prop :=
  match t with
  | .lit l => s = l
  | .var n => binds t.text s ∨ ((∀ v, ¬ binds t.text v) ∧ s = '{' :: (n ++ ['}']))

/-- `t` is the template with all placeholders replaced at once. -/
def Filled (binds : Str → Str → Prop) (ts : List Tok) (t : Str) : Prop := ∃ ss, Aligned (Becomes binds) ts ss ∧ t = ss.flatten

/-- The rule has a template as resource, and its placeholders have no braces inside. -/
def Tidy (pq : QueryParser) (r : Rule) : Prop :=
  (∃ ts, Template r.resource ts) ∧ ∀ segs qm, RuleParts pq r segs qm → ∀ s ∈ segs ++ qm.flatMap (·.2), IsPh s → (Tok.var (s.tail.dropLast)).Ok

/-- The request has no opening brace. -/
def NoBrace (path : Str) (rq : SMap (List Str)) : Prop := '{' ∉ path ∧ ∀ k vs v, (k, vs) ∈ rq → v ∈ vs → '{' ∉ v

end Athenz.Spec
