import Verif.Props.Partitions
import Verif.Props.Classes
import Verif.Props.IndexA
import Verif.Props.IndexBC
import Verif.Props.IndexD
import Verif.Props.Dual
import Verif.Props.Maps
import Verif.Props.PieriA
import Verif.Props.Expr
import Verif.Props.RingA
import Verif.Props.RimHook
import Verif.Props.RimProd
import Verif.Props.Memo
import Verif.Props.Text
import Verif.Props.SchurPol
import Verif.Props.Output
import Verif.Props.PieriBCD
import Verif.Props.QPieriBCD
import Verif.Props.PieriExact
import Verif.Props.QPieriExact
import Verif.Proofs.Word
import Verif.Proofs.WordStar
import Verif.Proofs.WordShape
import Verif.Proofs.WordRun
import Verif.Proofs.WordPieri
import Verif.Proofs.WordBij
import Verif.Proofs.WordSys
import Verif.Proofs.WordC
import Verif.Spec.RingLaws
import Verif.Proofs.RingGen
import Verif.Proofs.RingOps
import Verif.Proofs.RingBC
import Verif.Props.RingBC
import Verif.Proofs.WordDual
import Verif.Props.DualBC
import Verif.Props.CountBC
import Verif.Proofs.WordQB
import Verif.Proofs.RingQB
import Verif.Props.RingQB
import Verif.Proofs.WordD
import Verif.Proofs.WordDQ
import Verif.Proofs.WordDPieri
import Verif.Proofs.WordDSign
import Verif.Proofs.WordDLab
import Verif.Proofs.WordDCoef
import Verif.Proofs.WordDOps
import Verif.Proofs.WordDTerm
import Verif.Proofs.WordDLead
import Verif.Proofs.RingD
import Verif.Props.RingD
import Verif.Proofs.WordDDual
import Verif.Props.DualD
import Verif.Proofs.Alt
import Verif.Proofs.AltQ
import Verif.Proofs.AltP
import Verif.Proofs.AltA
import Verif.Proofs.RimA
import Verif.Proofs.Jacobi
import Verif.Props.Jacobi
import Verif.Props.SchurRing
import Verif.Props.DualLc
import Verif.Props.LR
import Verif.Props.Symm
import Verif.Props.Seidel
import Verif.Props.CompareBC
import Verif.Props.SwapD
import Verif.Props.Tree
import Verif.Props.SchurOps
import Verif.Props.Pictures
import Verif.Props.CompareBD
import Verif.Props.Transpose
import Verif.Props.Globals
import Verif.Props.Hooks
import Verif.Props.Relations
import Verif.Props.LexOrder
import Verif.Props.LcText
import Verif.Props.TreeOps
import Verif.Props.State
import Verif.Props.RelationsD
import Verif.Props.TwoParam
import Verif.Props.JacobiTrudi
import Verif.Props.Presentation
import Verif.Proofs.Quadric
import Verif.Props.Quadric
import Verif.Props.PresentationBC
import Verif.Props.Degree
import Verif.Props.DegreeBC
import Verif.Props.TwoRow
import Verif.Props.SeidelBCD
import Verif.Props.Kostka
import Verif.Props.QuadricD
import Verif.Props.RowRow
import Verif.Props.Giam2
import Verif.Props.TwoProd
import Verif.Props.TwoSym
import Verif.Props.TwoSeidel
import Verif.Props.SpinD
import Verif.Props.Roots
import Verif.Props.Verlinde
import Verif.Props.NonVanish
import Verif.Props.Positive
import Verif.Props.SeidelSym
import Verif.Props.TwoMore
import Verif.Props.Scripts
import Verif.Props.Pfaff
import Verif.Tests.Docs
import Verif.Props.QTilde
import Verif.Props.VafaMax
import Verif.Props.TwoRings
import Verif.Props.CallGraph
import Verif.Props.PresentationBC2
import Verif.Props.PresentationD
import Verif.Props.PresentationTwo
import Verif.Props.StableBC
import Verif.Props.SpinPull
import Verif.Props.Bruhat
import Verif.Props.BruhatD
import Verif.Props.BruhatA
import Verif.Props.BruhatQ
import Verif.Props.PowersQ
import Verif.Props.BruhatQC
import Verif.Props.BruhatQB
import Verif.Props.BruhatQO
import Verif.Props.PointQ
import Verif.Props.PowersBC
import Verif.Props.TriangleQ
import Verif.Tests.Spaces
import Verif.Tests.Functions
import Verif.Tests.Csv
