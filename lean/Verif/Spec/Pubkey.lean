import Verif.Model.Pubkeyd

/-! # Specification: published keys and refresh histories -/

namespace Athenz
namespace Spec

/-- The key list can be used as a whole: no `null` entry and every key text yields a verifier. -/
def Complete (cfg : PkCfg) (es : List (Option PubKeyEntry)) : Prop := ∀ p ∈ es, ∃ q : PubKeyEntry, p = some q ∧ (cfg.newVerifier q.2).isSome

/-- The verifier that a key list publishes under an id: the last entry with that id counts. -/
def published (cfg : PkCfg) (es : List (Option PubKeyEntry)) (id : Str) : Option SigVerifier :=
  ((es.filterMap fun p => p).reverse.find? fun q => q.1 == id).bind fun q => cfg.newVerifier q.2

/-- Every `Update` starts one job for ZTS and then one for ZMS. -/
def jobEnv (j : Nat) : Env := if j % 2 = 0 then .zts else .zms

/-- During the history `h` the service `e` answered some request with the complete key list `es`. -/
def Served (cfg : PkCfg) (h : List PkAct) (e : Env) (es : List (Option PubKeyEntry)) : Prop :=
  ∃ j x b o, PkAct.answer j (.answer 200 x b) o ∈ h ∧ jobEnv j = e ∧ cfg.decode b = some (some es) ∧ Complete cfg es

/-- No refresh of service `e` is being applied. -/
def KeysQuiet (e : Env) (s : PkState) : Prop :=
  ∀ (i : Nat) (cm : SMap SigVerifier) (todo : List Str), s.jobs[i]? ≠ some ⟨e, .storing cm todo⟩ ∧ s.jobs[i]? ≠ some ⟨e, .deleting cm todo⟩

/-- Job `j` is the only one of its service that applies a refresh during `h`. -/
def Alone (j : Nat) (h : List PkAct) : Prop := ∀ i o, PkAct.step i o ∈ h → jobEnv i = jobEnv j → i = j

/-- The job of an action. -/
def jobOf : PkAct → Option Nat
  | .send j => some j
  | .answer j _ _ => some j
  | .step j _ => some j
  | _ => none

/-- What an honest server whose current version for a service is `cur` answers to a request carrying the ETag `t`; `content` gives the
body of every version.  `304` is only sent to a client that named the current version. -/
def HonestAnswer (content : Str → Str) (cur : Str) (t : Option Str) (r : HttpResult) : Prop :=
  match r with
  | .fail _ => True
  | .answer status x b => (status = 304 → t = some cur) ∧ (status = 200 → b = content cur ∧ (x = cur ∨ x = []))

/-- The ETag of the request of a job that is under way. -/
def requestTag (s : PkState) (j : Nat) : Option Str :=
  match s.jobs[j]? with
  | some ⟨_, .sent t⟩ => t
  | _ => none

/-- Executions against an honest server.  Each action is paired with the versions current at that moment. -/
inductive HonestRun (cfg : PkCfg) (content : Env → Str → Str) (s0 : PkState) : List ((Env → Str) × PkAct) → PkState → Prop
  | nil : HonestRun cfg content s0 [] s0
  | snoc {h s s'} (cur : Env → Str) (a : PkAct) (hr : HonestRun cfg content s0 h s) (hs : pkStep cfg s a = some s')
      (hh : ∀ j r o, a = .answer j r o → HonestAnswer (content (jobEnv j)) (cur (jobEnv j)) (requestTag s j) r) :
      HonestRun cfg content s0 (h ++ [(cur, a)]) s'

/-- A service is refreshed by one job at a time: a request is sent only while no other job of the service has one under way or is applying
its answer. -/
def Sequential (cfg : PkCfg) (s0 : PkState) (h : List PkAct) : Prop :=
  ∀ pre j post s, h = pre ++ PkAct.send j :: post → pkRun cfg s0 pre = some s →
    ∀ (i : Nat) (b : PkJob), s.jobs[i]? = some b → b.env = jobEnv j → i ≠ j → b.pc = .start ∨ ∃ r, b.pc = .done r

/-- A key list that makes the decoding loop dereference a nil entry: everything before the entry decodes. -/
def NullEntry (cfg : PkCfg) (es : List (Option PubKeyEntry)) : Prop := ∃ pre post, es = pre ++ none :: post ∧ Complete cfg pre

/-- A key that cannot be used is the first obstacle in the list. -/
def BadKey (cfg : PkCfg) (es : List (Option PubKeyEntry)) : Prop :=
  ∃ pre id key post, es = pre ++ some (id, key) :: post ∧ Complete cfg pre ∧ cfg.newVerifier key = none

/-- The error that an answer of a key server leads to. -/
inductive PkFails (cfg : PkCfg) : HttpResult → Err → Prop
  | transport (e : Err) : PkFails cfg (.fail e) e
  | status (n : Nat) (x b : Str) (h200 : n ≠ 200) (h304 : n ≠ 304) : PkFails cfg (.answer n x b) .fetchAthenzPubkey
  | json (x b : Str) (h : cfg.decode b = none) : PkFails cfg (.answer 200 x b) (.other "json format not correct")
  | key (x b : Str) (es : List (Option PubKeyEntry)) (h : cfg.decode b = some (some es)) (hk : BadKey cfg es) :
      PkFails cfg (.answer 200 x b) (.other "error decoding key")

end Spec
end Athenz
