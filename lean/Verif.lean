import Verif.Basic
import Verif.Queue.Props
import Verif.Queue.Atomic
import Verif.RdyGrp.Props
import Verif.RdyGrp.Live
import Verif.MemPool.Props
import Verif.Timer.Props
import Verif.Timer.HooksProps
import Verif.Trc.Props
import Verif.Trc.PointsProps
import Verif.Fwk.Findings
import Verif.SM.Findings
import Verif.SM.Fuel
import Verif.SM.Total
import Verif.SM.FlatProps
import Verif.Port.Props
import Verif.Port.UcosProps
import Verif.Bsp.UartProps
import Verif.Bsp.Tstamp
import Verif.Bsp.TstampProps
import Verif.Fwk.Drain
import Verif.Sys.Props
import Verif.Sys.Demo
import Verif.Sys.Timeouts
import Verif.SM.TraceProps
import Verif.SM.AgainProps
import Verif.SM.Partial
import Verif.Fwk.Partial
import Verif.Fwk.Virtual
import Verif.Fwk.VirtualProps
import Verif.Fwk.VirtualLive
import Verif.Trc.Partial
import Verif.MemPool.Wrap
import Verif.Fwk.TraceDemo
import Verif.Timer.TraceProps
import Verif.Queue.TraceProps
import Verif.MemPool.TraceProps
import Verif.Link.Read
import Verif.Link.ReadLemmas
import Verif.Link.Props
import Verif.Link.Demo
import Verif.SM.Design
import Verif.SM.DesignDemo
import Verif.SM.Completion
import Verif.Sys.Rest
import Verif.Sys.RestDemo
import Verif.Timer.Time
import Verif.Fwk.Register
import Verif.Fwk.PoolSize
import Verif.Fwk.Life
import Verif.Fwk.Response
import Verif.MemPool.Confined
import Verif.Thread.Model
import Verif.Thread.Spec
import Verif.Thread.Lemmas
import Verif.Thread.Props
import Verif.Thread.Life
import Verif.Thread.Demo
import Verif.Thread.Backlog
import Verif.SM.PropsRobust
import Verif.Nest.Props
import Verif.SM.Memory
import Verif.App.Ahsm
import Verif.App.SharedProps
import Verif.Timer.InfoProps
import Verif.MemPool.InfoProps
import Verif.Fwk.Reinit
import Verif.Sys.DynTimer
import Verif.Trc.FlushProps
import Verif.Trc.Race
import Verif.Trc.FlushExact
import Verif.Trc.Overflow
import Verif.Host.TzProps
import Verif.App.BlinkyProps
import Verif.SM.Instances
import Verif.SM.Iso
import Verif.SM.IsoProps
import Verif.Subm.Model
import Verif.Subm.Spec
import Verif.Subm.Lemmas
import Verif.Subm.Lemmas2
import Verif.Subm.Lemmas3
import Verif.Subm.Lemmas4
import Verif.Subm.Lemmas5
import Verif.Subm.Lemmas6
import Verif.Subm.Demo
import Verif.Subm.Props
import Verif.Subm.DemoProps
import Verif.Subm.Points
import Verif.Subm.Objects
import Verif.Life.Model
import Verif.Life.Props
import Verif.Life.Multi
import Verif.Life.MultiProps
import Verif.Fwk.Deplete
import Verif.Bsp.Switch
import Verif.Bsp.SwitchProps
import Verif.Bsp.Rand
