import Verif.Model.Py
import Verif.Model.Util
import Verif.Model.Regex
import Verif.Model.Parse
import Verif.Model.Term
import Verif.Spec.Basic
import Verif.Spec.TermShape
import Verif.Proofs.Text
import Verif.Proofs.Regex
import Verif.Proofs.Parse
import Verif.Proofs.Sort
import Verif.Props.Util
import Verif.Props.Parse
import Verif.Props.Term
import Verif.Model.Level
import Verif.Proofs.Level
import Verif.Props.Level
import Verif.Model.Graph
import Verif.Model.World
import Verif.Model.Trigger
import Verif.Proofs.Graph
import Verif.Proofs.World
import Verif.Proofs.History
import Verif.Proofs.Enforce
import Verif.Proofs.Components
import Verif.Proofs.Forest
import Verif.Spec.Atom
import Verif.Proofs.SetFreq
import Verif.Props.Enforce
import Verif.Proofs.Alias
import Verif.Proofs.Keep
import Verif.Props.Container
import Verif.Props.Energies
import Verif.Props.Transitions
import Verif.Model.Derived
import Verif.Props.Derived
import Verif.Model.Table
import Verif.Props.Table
import Verif.Spec.Racah
import Verif.Proofs.Racah
import Verif.Model.Wigner
import Verif.Props.Strengths
import Verif.Props.Geometry
import Verif.Proofs.Subs
import Verif.Props.Subs
import Verif.Proofs.SixSum
import Verif.Model.SubTrans
import Verif.Proofs.SubTrans
import Verif.Proofs.SubStrength
import Verif.Props.SubTrans
import Verif.Model.Lineshape
import Verif.Props.Lineshape
import Verif.Model.Environment
import Verif.Model.Spectra
import Verif.Model.Grotrian
import Verif.Props.Render
import Verif.Proofs.Grotrian
import Verif.Props.Grotrian
import Verif.Props.Heights
import Verif.Model.IO
import Verif.Proofs.Csv
import Verif.Props.IO
import Verif.Props.Conf
import Verif.Model.TransKeys
import Verif.Model.Rounded
import Verif.Proofs.TAlias
import Verif.Proofs.Rounded
import Verif.Props.TransKeys
import Verif.Props.TransList
import Verif.Props.Rounded
import Verif.Model.Nist
import Verif.Proofs.Nist
import Verif.Props.Nist
import Verif.Model.Coupling
import Verif.Spec.Nine
import Verif.Props.Coupling
import Verif.Proofs.SixRec
import Verif.Proofs.Dougall
import Verif.Proofs.SixOrth
import Verif.Proofs.NineOrth
import Verif.Proofs.ThreeNorm
import Verif.Props.CouplingSum
import Verif.Props.SumRules
import Verif.Proofs.Retune
import Verif.Props.Pinned
import Verif.Props.Present
import Verif.Props.Scan
import Verif.Props.ScanTree
import Verif.Props.Warnings
import Verif.Props.Seeds
import Verif.Props.Commute
import Verif.Props.Groups
import Verif.Model.Units
import Verif.Props.Units
import Verif.Props.LevelKeys
import Verif.Props.BadFreq
import Verif.Props.Rates
import Verif.Model.SubEnds
import Verif.Props.SubEnds
import Verif.Model.Hand
import Verif.Props.Hand
import Verif.Props.GSum
import Verif.Props.Fit
import Verif.Props.Replace
import Verif.Props.Retune
import Verif.Model.Linked
import Verif.Proofs.Linked
import Verif.Props.Linked
import Verif.Proofs.LinkedZ
import Verif.Props.LinkedZ
import Verif.Props.Cells
import Verif.Model.Load
import Verif.Props.Load
import Verif.Props.Full
import Verif.Model.Items
import Verif.Props.Items
import Verif.Props.Whole
import Verif.Props.NoRate
import Verif.Props.Beam
import Verif.Model.Diagram
import Verif.Props.Diagram
import Verif.Props.Gravity
import Verif.Model.Plot
import Verif.Props.Plot
import Verif.Model.SubItems
import Verif.Props.SubItems
import Verif.Props.GravityZ
import Verif.Props.AddTrans
import Verif.Model.Wavelength
import Verif.Props.Wavelength
import Verif.Props.Constants
import Verif.Model.Repr
import Verif.Props.Repr
import Verif.Model.TwoAtoms
import Verif.Spec.TwoAtoms
import Verif.Proofs.TwoAtoms
import Verif.Props.TwoAtoms
import Verif.Model.Hue
import Verif.Props.Hue
import Verif.Model.Placed
import Verif.Props.Placed
import Verif.Model.Draw
import Verif.Props.Draw
import Verif.Model.Thermal
import Verif.Props.Thermal
import Verif.Props.TransFresh
import Verif.Props.Affine
import Verif.Props.Quiet
import Verif.Props.Ritz
import Verif.Props.Order
import Verif.Props.Tuning
import Verif.Model.Species
import Verif.Props.Species
import Verif.Props.Mirror
import Verif.Props.Strategies
import Verif.Props.NistAtom
import Verif.Proofs.CsvText
import Verif.Props.Outward
import Verif.Model.Ortho
import Verif.Props.Ortho
import Verif.Props.TwoLookup
import Verif.Spec.Decimal
import Verif.Proofs.Decimal
import Verif.Props.Atomic
import Verif.Props.Field
import Verif.Model.Assign
import Verif.Props.Assign
import Verif.Props.BadNew
import Verif.Props.PutBack
import Verif.Props.AddAgain
import Verif.Props.Rigid
import Verif.Props.RatesFit
import Verif.Props.AliasFree
import Verif.Props.Mute
import Verif.Props.NoMag
import Verif.Props.Eager
import Verif.Props.Even
import Verif.Props.Mutual
import Verif.Props.Flip
import Verif.Props.FlipLines
import Verif.Props.Isotopes
