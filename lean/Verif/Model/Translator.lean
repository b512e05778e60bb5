import Verif.Model.Err
import Verif.Go.SyncMap

/-!
# translator.go

Maps are association lists with different keys.  The order in which a `range` visits a map is chosen by a `MapOrder`.
-/

namespace Athenz

/-- translator.go:71, 115, 164, 181.  The order of every iteration over a map: the iterations of an execution have different indices, and
each sees the entries of its map in an order of its own. -/
structure MapOrder where
  at' : {α : Type} → List Nat → List α → List α
  perm : ∀ {α : Type} (i : List Nat) (l : List α), (at' i l).Perm l

/-- translator.go:110, 147.  `url.ParseQuery`: the values of every key, or an error.  Not modelled further. -/
abbrev QueryParser := Str → Option (SMap (List Str))

/-- translator.go:110, 147.  What is assumed of `url.ParseQuery`: its result is a map. -/
def QueryParser.Ok (pq : QueryParser) : Prop := ∀ s m, pq s = some m → m.keys.Nodup

/-- translator.go:37-40 `param`. -/
structure Param where
  name : Str
  isPlaceholder : Bool
deriving DecidableEq, Repr

/-- translator.go:43-50 `Rule`.  A rule that has been validated before, possibly with another path, still has the `queryValueMap` of then. -/
structure Rule where
  method : Str
  path : Str
  action : Str
  resource : Str
  splitPaths : List Param := []
  queryValueMap : SMap Param := []
deriving DecidableEq, Repr

/-- translator.go:53-55 `MappingRules`; `none` is the nil map and a domain's nil slice. -/
abbrev RuleSet := SMap (Option (List Rule))

namespace Rule

/-- translator.go:190-213 `isPlaceholder`.  The loops look for any entry, in whatever order. -/
def isPlaceholder (r : Rule) (s : Str) : Res Bool :=
  if s = "{}".toList then .err (.other "placeholder is empty")
  else if Str.hasPrefix s "{".toList && Str.hasSuffix s "}".toList then
    if r.splitPaths.any fun p => p.isPlaceholder && p.name == s then .err (.other "placeholder is duplicated")
    else if r.queryValueMap.any fun e => e.2.isPlaceholder && e.2.name == s then .err (.other "placeholder is duplicated")
    else .ok true
  else .ok false

/-- translator.go:93-102: the loop over the path segments.  The segments not yet reached are zero values in Go, which are no
placeholders; here they are not there yet. -/
def addPaths (r : Rule) : List Str → Res Rule
  | [] => .ok r
  | s :: ss =>
    match r.isPlaceholder s with
    | .ok b => addPaths { r with splitPaths := r.splitPaths ++ [⟨s, b⟩] } ss
    | .err e => .err e
    | .panic => .panic

/-- translator.go:115-127: the loop over the query parameters. -/
def addQueries (r : Rule) : SMap (List Str) → Res Rule
  | [] => .ok r
  | (k, vs) :: m =>
    match vs with
    | [v] =>
      match r.isPlaceholder v with
      | .ok b => addQueries { r with queryValueMap := r.queryValueMap.store k ⟨v, b⟩ } m
      | .err e => .err e
      | .panic => .panic
    | _ => .err (.other "query multiple values is not allowed")

/-- translator.go:80-127: one rule. -/
def compile (pq : QueryParser) (ord : SMap (List Str) → SMap (List Str)) (r : Rule) : Res Rule :=
  if r.method = [] ∨ r.action = [] ∨ r.resource = [] then .err (.other "rule is empty")
  else if r.path ≠ [] ∧ Str.hasPrefix r.path "/".toList = false then .err (.other "path doesn't start with slash")
  else
    let pathQuery := Str.cut "?".toList r.path
    match addPaths { r with splitPaths := [] } (Str.split '/' (match pathQuery with | some p => p.1 | none => r.path)) with
    | .ok r1 =>
      let r2 := { r1 with queryValueMap := [] }
      match pathQuery with
      | none => .ok r2
      | some p =>
        match pq p.2 with
        | none => .err (.other "url.ParseQuery")
        | some m => addQueries r2 (ord m)
    | .err e => .err e
    | .panic => .panic

end Rule

/-- translator.go:79-128: the rules of the `d`-th domain visited, from the `i`-th on. -/
def compileRules (pq : QueryParser) (o : MapOrder) (d : Nat) : Nat → List Rule → Res (List Rule)
  | _, [] => .ok []
  | i, r :: rs =>
    match r.compile pq (o.at' [d, i]) with
    | .ok r' =>
      match compileRules pq o d (i + 1) rs with
      | .ok rs' => .ok (r' :: rs')
      | .err e => .err e
      | .panic => .panic
    | .err e => .err e
    | .panic => .panic

/-- translator.go:71-129: the domains in the order visited.  The rules are changed in place; here the changed map is the result. -/
def compileDomains (pq : QueryParser) (o : MapOrder) : Nat → RuleSet → Res RuleSet
  | _, [] => .ok []
  | d, (k, v) :: m =>
    if k = [] then .err (.other "domain is empty")
    else match v with
      | none => .err (.other "rules is nil")
      | some rs =>
        match compileRules pq o d 0 rs with
        | .ok rs' =>
          match compileDomains pq o (d + 1) m with
          | .ok m' => .ok ((k, some rs') :: m')
          | .err e => .err e
          | .panic => .panic
        | .err e => .err e
        | .panic => .panic

/-- translator.go:58-67 `NewMappingRules`. -/
def newMappingRules (pq : QueryParser) (o : MapOrder) : Option RuleSet → Res RuleSet
  | none => .err (.other "rules is nil")
  | some m => compileDomains pq o 0 (o.at' [] m)

/-- translator.go:156-162: the loop over the requested path segments; `none` is `continue OUTER`.  Both lists have the same length here;
an index out of range is not reached (line 143). -/
def matchPaths : List Param → List Str → SMap Str → Option (SMap Str)
  | p :: ps, s :: ss, m =>
    if p.isPlaceholder then matchPaths ps ss (m.store p.name s)
    else if s = p.name then matchPaths ps ss m
    else none
  | _, _, m => some m

/-- translator.go:164-178: the loop over the requested query parameters. -/
def matchQueries (qm : SMap Param) : SMap (List Str) → SMap Str → Option (SMap Str)
  | [], m => some m
  | (k, vs) :: q, m =>
    match vs with
    | [v] =>
      match qm.load k with
      | some p =>
        if p.isPlaceholder then matchQueries qm q (m.store p.name v)
        else if v = p.name then matchQueries qm q m
        else none
      | none => none
    | _ => none

/-- translator.go:180-183. -/
def substitute (res : Str) (l : SMap Str) : Str := l.foldl (fun t e => Str.replaceAll t e.1 e.2) res

/-- translator.go:141-185: what one rule makes of a request: `none` is `continue`. -/
def Rule.apply (pq : QueryParser) (U : CaseFns) (o : MapOrder) (i : Nat) (r : Rule) (method path query : Str) : Option (Res (Str × Str)) :=
  if U.toLower r.method = U.toLower method then
    if (Str.split '/' path).length ≠ r.splitPaths.length then none
    else match pq query with
      | none => some (.err (.other "url.ParseQuery"))
      | some q =>
        if q.length ≠ r.queryValueMap.length then none
        else match matchPaths r.splitPaths (Str.split '/' path) [] with
          | none => none
          | some m =>
            match matchQueries r.queryValueMap (o.at' [0, i] q) m with
            | none => none
            | some m => some (.ok (r.action, substitute r.resource (o.at' [1, i] m)))
  else none

/-- translator.go:139-187: the rules from the `i`-th on. -/
def applyRules (pq : QueryParser) (U : CaseFns) (o : MapOrder) (method path query : Str) : Nat → List Rule → Res (Str × Str)
  | _, [] => .ok (method, path)
  | i, r :: rs =>
    match r.apply pq U o i method path query with
    | some x => x
    | none => applyRules pq U o method path query (i + 1) rs

/-- translator.go:134-188 `Translate`.  A domain without rules and the nil slice have nothing to range over.  The nil map (line 135) has no
domains. -/
def translateReq (pq : QueryParser) (U : CaseFns) (o : MapOrder) (mr : RuleSet) (domain method path query : Str) : Res (Str × Str) :=
  applyRules pq U o method path query 0 (((mr.load domain).bind id).getD [])

end Athenz
