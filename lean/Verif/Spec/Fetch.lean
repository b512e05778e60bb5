import Verif.Model.Fetcher

/-! # What a verified policy and the last good download are -/

namespace Athenz.Spec

/-- The document has data and an expiry strictly in the future, its key id names a ZTS key under which its signature over the data
verifies, and its ZMS key id names a ZMS key under which the ZMS signature over the policy data verifies. -/
def Verified (C : Codec) (keys : KeyProvider) (now : Int) (sp : SignedPolicy) : Prop :=
  ∃ d e, sp.data = some d ∧ d.expires = some e ∧ now < e ∧
    (∃ ver text, keys .zts sp.keyId = some ver ∧ C.marshalSigned d = some text ∧ ver text sp.signature = true) ∧
    (∃ ver text, keys .zms d.zmsKeyId = some ver ∧ C.marshalPolicy d.policyData = some text ∧ ver text d.zmsSignature = true)

/-- `d` is what the document says: the policies with their assertions, of which none is missing, and the expiry. -/
def PolicySays (sp : SignedPolicy) (d : PolicyDoc) : Prop :=
  ∃ x pd, sp.data = some x ∧ x.policyData = some pd ∧ x.expires = some d.expires ∧ pd.policies = d.policies.map fun l => some ⟨l.map some⟩

/-- In state `s` the event `a` is the arrival of a `200 OK` answer with ETag `eTag` whose body is the verified policy `sp`. -/
def Download (cfg : FetchCfg) (s : FState) (a : FAct) (eTag : Str) (sp : SignedPolicy) : Prop :=
  ∃ j body, a = .answer j (.answer 200 eTag body) ∧ (∃ c i tp, s.calls[j]? = some c ∧ c.pc = .sent i tp) ∧
    cfg.codec.decode body = some (some sp) ∧ Verified cfg.codec s.keys s.now sp

/-- `sp` was downloaded and verified at some point of the history `h` that starts in `s0`. -/
def Downloaded (cfg : FetchCfg) (s0 : FState) (h : List FAct) (eTag : Str) (sp : SignedPolicy) : Prop :=
  ∃ pre a post s, h = pre ++ a :: post ∧ fRun cfg s0 pre = some s ∧ Download cfg s a eTag sp

/-- The latest download of the history `h`, if there is one. -/
def LastDownload (cfg : FetchCfg) (s0 : FState) (h : List FAct) : Option (Str × SignedPolicy) → Prop
  | none => ∀ eTag sp, ¬ Downloaded cfg s0 h eTag sp
  | some (eTag, sp) => ∃ pre a post s s', h = pre ++ a :: post ∧ fRun cfg s0 pre = some s ∧ Download cfg s a eTag sp ∧
      fStep cfg s a = some s' ∧ ∀ eTag' sp', ¬ Downloaded cfg s' post eTag' sp'

end Athenz.Spec

namespace Athenz

/-- An answer that makes `Fetch` succeed: a verified download, or a 304 while a policy was cached when the request was sent. -/
def FAct.succeeds (cfg : FetchCfg) (s : FState) (a : FAct) (sp : SignedPolicy) : Prop :=
  (∃ t, Spec.Download cfg s a t sp) ∨
  ∃ j e b c i t, a = .answer j (.answer 304 e b) ∧ s.calls[j]? = some c ∧ c.pc = .sent i (some t) ∧ t.sp = sp

end Athenz
