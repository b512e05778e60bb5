import Verif.Proofs.Str
import Verif.Proofs.Num
import Verif.Proofs.Glob
import Verif.Go.Gache
import Verif.Proofs.CheckTerm
import Verif.Proofs.Update
import Verif.Props.Check
import Verif.Props.Policy
import Verif.Props.Policyd
import Verif.Props.Expiry
import Verif.Props.Pubkey
import Verif.Props.Role
import Verif.Props.Access
import Verif.Props.Authority
import Verif.Props.RoleCert
import Verif.Props.Translator
import Verif.Props.Mask
import Verif.Props.Loop
import Verif.Props.Init
import Verif.Props.Start
import Verif.Props.Client
import Verif.Props.Options
import Verif.Spec.NewError
import Verif.Spec.Duration
import Verif.Props.Duration
import Verif.Props.NewError
import Verif.Props.Serve
import Verif.Props.Ticker
import Verif.Props.HttpClient
import Verif.Proofs.PolicydGood
import Verif.Proofs.System
import Verif.Proofs.SysInv
import Verif.Proofs.SysOrigin
import Verif.Proofs.SysProj
import Verif.Props.System
import Verif.Proofs.Fill
import Verif.Props.Limits
import Verif.Proofs.MergeLost
import Verif.Proofs.RoleLocal
import Verif.Props.Local
import Verif.Props.Uniform
import Verif.Props.Term
import Verif.Props.Slices
import Verif.Props.Fresh
import Verif.Props.PolicydLocal
import Verif.Proofs.ObjVer
import Verif.Proofs.TaskInv
import Verif.Proofs.ForceAny
import Verif.Proofs.ForceCheck
import Verif.Proofs.Alike
import Verif.Proofs.AlikeSys
import Verif.Props.InForce
import Verif.Props.SysLive
import Verif.Props.SystemCert
import Verif.Props.PolicyCache
import Verif.Props.Change
import Verif.Props.Withdraw
import Verif.Props.Body
import Verif.Props.SysGrant
import Verif.Props.SystemLoop
import Verif.Props.Rotate
import Verif.Props.RotateJwk
import Verif.Props.Revoke
import Verif.Props.Running
import Verif.Props.Shutdown
import Verif.Spec.CutOff
import Verif.Proofs.Since
import Verif.Props.CutOff
import Verif.Spec.RefreshDeny
import Verif.Proofs.RefreshDeny
import Verif.Props.RefreshDeny
import Verif.Spec.ChangeCert
import Verif.Props.ChangeCert
import Verif.Spec.Pause
import Verif.Props.Pause
import Verif.Spec.RuleFault
import Verif.Props.RuleFault
import Verif.Spec.RoleFault
import Verif.Props.RoleFault
import Verif.Model.Shared
import Verif.Spec.Shared
import Verif.Proofs.Shared
import Verif.Props.Shared
import Verif.Spec.NoKeys
import Verif.Props.NoKeys
import Verif.Go.Query
import Verif.Spec.Query
import Verif.Proofs.Query
import Verif.Props.Query
import Verif.Model.Races
import Verif.Spec.Races
import Verif.Proofs.Races
import Verif.Proofs.RacesOrder
import Verif.Props.Races
import Verif.Model.Expiry
import Verif.Spec.Expiry
import Verif.Proofs.Expiry
import Verif.Proofs.ExpiryLive
import Verif.Proofs.ExpiryRuns
import Verif.Proofs.ExpiryHit
import Verif.Props.ExpiredPolicies
import Verif.Model.Handed
import Verif.Spec.Handed
import Verif.Proofs.Handed
import Verif.Proofs.HandedSees
import Verif.Props.Handed
import Verif.Model.Timing
import Verif.Spec.Timing
import Verif.Proofs.Timing
import Verif.Props.Timing
import Verif.Model.Pace
import Verif.Spec.Pace
import Verif.Proofs.Pace
import Verif.Props.Pace
import Verif.Go.Float
import Verif.Model.ClientFloat
import Verif.Spec.ClientFloat
import Verif.Proofs.ClientFloat
import Verif.Props.ClientFloat
import Verif.Spec.Stale
import Verif.Proofs.Stale
import Verif.Props.Stale
import Verif.Spec.Sweep
import Verif.Proofs.Sweep
import Verif.Props.Sweep
import Verif.Spec.Refused
import Verif.Proofs.Refused
import Verif.Props.Refused
import Verif.Model.Configured
import Verif.Spec.Configured
import Verif.Props.Configured
import Verif.Spec.Paced
import Verif.Props.Paced
import Verif.Spec.TimedRun
import Verif.Props.TimedRun
import Verif.Props.PacedRequests
import Verif.Spec.LoopTime
import Verif.Props.LoopTime
import Verif.Props.LoopReach
import Verif.Spec.InTime
import Verif.Props.InTime
import Verif.Props.InTimeRun
import Verif.Spec.PacedJwk
import Verif.Props.PacedJwk
import Verif.Spec.InTimeJwk
import Verif.Props.InTimeJwk
import Verif.Props.InTimeJwkRun
import Verif.Spec.PacedPk
import Verif.Props.PacedPk
import Verif.Props.InTimePk
import Verif.Props.InTimePkRun
import Verif.Props.InTimeKeys
import Verif.Spec.InTimeAll
import Verif.Props.InTimeAll
import Verif.Props.InTimeAllRun
import Verif.Props.InTimeAllDeny
import Verif.Props.InTimeAccept
