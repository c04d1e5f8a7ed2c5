import Verif.Model.Map
import Verif.Proofs.Trace
import Verif.Proofs.Recov
import Verif.Proofs.Flags
import Verif.Proofs.Evo
import Verif.Props.Basic
import Verif.Proofs.Enq
import Verif.Proofs.Top
import Verif.Proofs.Epoch
import Verif.Proofs.Resume3
import Verif.Props.CrashSpec
import Verif.Props.Crash
import Verif.Props.Example3
import Verif.Props.MapSpec
import Verif.Props.Map
import Verif.Props.Example
import Verif.Props.Journal
import Verif.Props.Violations
import Verif.Props.Example2
import Verif.Props.Hamming
import Verif.Props.Crc
import Verif.Props.Bch
import Verif.Props.Gf13
import Verif.Props.Repair
import Verif.Proofs.Retire
import Verif.Proofs.Keep
import Verif.Props.Wear
import Verif.Props.Live
import Verif.Props.Total
import Verif.Props.Retire
import Verif.Props.FaultSpec
import Verif.Proofs.Bal
import Verif.Proofs.Healthy
import Verif.Proofs.Healthy2
import Verif.Proofs.Healthy3
import Verif.Proofs.Healthy4
import Verif.Proofs.Faultless
import Verif.Props.Healthy
import Verif.Props.Restart
import Verif.Proofs.Count
import Verif.Proofs.Fails
import Verif.Props.Failed
import Verif.Proofs.Codes
import Verif.Props.Codes
import Verif.Props.Stuck
import Verif.Proofs.Readable
import Verif.Props.Readable
import Verif.Props.Mount
import Verif.Proofs.Cost
import Verif.Props.Cost
import Verif.Props.MemorySpec
import Verif.Proofs.Local
import Verif.Proofs.Local2
import Verif.Props.Memory
import Verif.Props.FifoSpec
import Verif.Props.Fifo
import Verif.Props.Recover
import Verif.Props.Gftool
import Verif.Proofs.Cookie
import Verif.Proofs.JDisk
import Verif.Proofs.Drain
import Verif.Proofs.JDisk2
import Verif.Props.JPowerSpec
import Verif.Props.JPower
import Verif.Ecc.Gentab
import Verif.Props.Gentab
import Verif.Props.EccLocal
import Verif.Props.Counters
import Verif.Props.Capacity
import Verif.Props.Lifetime
import Verif.Props.Wedge
import Verif.Props.Lifetime2
import Verif.Proofs.ChipInv
import Verif.Props.Position
