import Verif.Model.Fetcher
import Verif.Model.Options

/-! # policy/daemon.go:89-102: the settings of the fetchers -/

namespace Athenz

/-- policy/daemon.go:89-102.  What every fetcher of a policy daemon takes over from its settings; the decoder and encoder of JSON are
libraries.  The retry delay is not in `FetchCfg`, as a sleep is a `tick` there. -/
def PdSettings.fetchCfg (p : PdSettings) (C : Codec) : FetchCfg := ⟨C, p.expiryMargin, p.retryAttempts⟩

end Athenz
