import Verif.Model.BigQlm
import Verif.Model.ClebschGordan
import Verif.Model.CylMom
import Verif.Model.Examples
import Verif.Model.Extern
import Verif.Model.ForceFloat
import Verif.Model.GShapeGL
import Verif.Model.GenCAD
import Verif.Model.Glib
import Verif.Model.GlibFloat
import Verif.Model.GlibPlot
import Verif.Model.GlibShapes
import Verif.Model.Moments
import Verif.Model.MultipoleFloat
import Verif.Model.MultipoleLib
import Verif.Model.Octave
import Verif.Model.Pg2Float
import Verif.Model.Pg2Multi
import Verif.Model.Qlm
import Verif.Model.QlmACH
import Verif.Model.QlmACHole
import Verif.Model.QlmNum
import Verif.Model.Range
import Verif.Model.RangeSolids
import Verif.Model.ReadMulti
import Verif.Model.RecFloat
import Verif.Model.Rotations
import Verif.Model.ShapeClasses
import Verif.Model.ShapeHeap
import Verif.Model.Shapes
import Verif.Model.SolidFloat
import Verif.Model.TransFloat
import Verif.Model.TranslYuk
import Verif.Model.TranslationRecurs
import Verif.Model.Translations
import Verif.Model.WigFloat
import Verif.Proofs.AchAnn
import Verif.Proofs.AchBase
import Verif.Proofs.AchCone
import Verif.Proofs.AchCylBase
import Verif.Proofs.AchCylInt
import Verif.Proofs.AchCylMon
import Verif.Proofs.AchEll
import Verif.Proofs.AchHyp
import Verif.Proofs.AchHypBase
import Verif.Proofs.AchPlane
import Verif.Proofs.AchPlate
import Verif.Proofs.AchPlateBase
import Verif.Proofs.AchRect
import Verif.Proofs.AchSeg
import Verif.Proofs.AchSolid
import Verif.Proofs.AchTet
import Verif.Proofs.AchTrap
import Verif.Proofs.AchTri
import Verif.Proofs.Addition
import Verif.Proofs.ApproxSets
import Verif.Proofs.BallShells
import Verif.Proofs.BigAnnBase
import Verif.Proofs.BigAnnCells
import Verif.Proofs.BigAnnGeom
import Verif.Proofs.BigAnnLog
import Verif.Proofs.BigAnnMatch
import Verif.Proofs.Bipolar
import Verif.Proofs.BipolarBody
import Verif.Proofs.Body
import Verif.Proofs.BodyEnergy
import Verif.Proofs.BodyFirst
import Verif.Proofs.BodyForce
import Verif.Proofs.CGOrtho
import Verif.Proofs.Cad
import Verif.Proofs.CadNgon
import Verif.Proofs.ClebschGordan
import Verif.Proofs.Dissect
import Verif.Proofs.Euler
import Verif.Proofs.Force
import Verif.Proofs.ForceConv
import Verif.Proofs.ForceRounding
import Verif.Proofs.ForceRounding2
import Verif.Proofs.GShapeGL
import Verif.Proofs.Gauss
import Verif.Proofs.GaussConv
import Verif.Proofs.GaussExists
import Verif.Proofs.GaussMoment
import Verif.Proofs.GlTracks
import Verif.Proofs.Glib
import Verif.Proofs.GlibRot
import Verif.Proofs.GlibShapes
import Verif.Proofs.HarmLip
import Verif.Proofs.LegLip
import Verif.Proofs.Legendre
import Verif.Proofs.MeanValue
import Verif.Proofs.MomRounding
import Verif.Proofs.Mpc
import Verif.Proofs.MpcLoop
import Verif.Proofs.MpcShapes
import Verif.Proofs.Nearest
import Verif.Proofs.Pg2Multi
import Verif.Proofs.Pg2Multi2
import Verif.Proofs.Planar
import Verif.Proofs.Planar2
import Verif.Proofs.PlanarNgon
import Verif.Proofs.PlanarPolar
import Verif.Proofs.Q2Q
import Verif.Proofs.Q2QBody
import Verif.Proofs.QlmBall
import Verif.Proofs.QlmClosed
import Verif.Proofs.QlmCyl
import Verif.Proofs.QlmNum
import Verif.Proofs.QlmNumBodies
import Verif.Proofs.QlmShapes
import Verif.Proofs.QlmShapes2
import Verif.Proofs.RandomTracks
import Verif.Proofs.Range
import Verif.Proofs.RangeRot
import Verif.Proofs.RangeSolids
import Verif.Proofs.RangeTrans
import Verif.Proofs.RecRounding
import Verif.Proofs.RecRounding2
import Verif.Proofs.RecRounding3
import Verif.Proofs.Riemann
import Verif.Proofs.Rounding
import Verif.Proofs.ShellMeasure
import Verif.Proofs.ShellTheorem
import Verif.Proofs.SlabInt
import Verif.Proofs.Solid
import Verif.Proofs.SolidExpand
import Verif.Proofs.SolidInt
import Verif.Proofs.SolidRounding
import Verif.Proofs.SolidRounding2
import Verif.Proofs.SolidRounding3
import Verif.Proofs.SphHarm
import Verif.Proofs.Torque
import Verif.Proofs.TorqueRounding
import Verif.Proofs.Tracks
import Verif.Proofs.TransBound
import Verif.Proofs.TransRecurs
import Verif.Proofs.TransRecurs2
import Verif.Proofs.TransRecurs3
import Verif.Proofs.TransRounding
import Verif.Proofs.TransRounding2
import Verif.Proofs.TransRounding3
import Verif.Proofs.Translations
import Verif.Proofs.TranslationsAlg
import Verif.Proofs.TripleInt
import Verif.Proofs.TruncErr
import Verif.Proofs.TwoBody
import Verif.Proofs.TwoCentre
import Verif.Proofs.WigRounding
import Verif.Proofs.WignerD
import Verif.Proofs.WignerDeriv
import Verif.Proofs.WignerPoly
import Verif.Proofs.WignerRec
import Verif.Proofs.WignerRot
import Verif.Proofs.YukShell
import Verif.Proofs.YukSlab
import Verif.Props.Axial
import Verif.Props.BigQlm
import Verif.Props.BodyEnergy
import Verif.Props.BodyForce
import Verif.Props.CGTable
import Verif.Props.Cad
import Verif.Props.ChainRounding
import Verif.Props.ClebschGordan
import Verif.Props.Convergence
import Verif.Props.Coupling
import Verif.Props.CrossCheck
import Verif.Props.CylCoords
import Verif.Props.CylMom
import Verif.Props.Dissect
import Verif.Props.Embed
import Verif.Props.Euler
import Verif.Props.Examples
import Verif.Props.FarField
import Verif.Props.Field
import Verif.Props.Force
import Verif.Props.ForceConv
import Verif.Props.ForceRounding
import Verif.Props.GShapeGL
import Verif.Props.Gauss
import Verif.Props.GlConverge
import Verif.Props.Glib
import Verif.Props.GlibBodies
import Verif.Props.GlibCentre
import Verif.Props.GlibConverge
import Verif.Props.GlibConverge2
import Verif.Props.GlibConverge3
import Verif.Props.GlibPlot
import Verif.Props.GlibPotential
import Verif.Props.GlibShapes
import Verif.Props.Imoments
import Verif.Props.LowMoments
import Verif.Props.LowOrder
import Verif.Props.MomRounding
import Verif.Props.Mpc
import Verif.Props.Octave
import Verif.Props.OctaveRest
import Verif.Props.OctaveScan
import Verif.Props.OctaveShapes
import Verif.Props.OuterRot
import Verif.Props.Pg2Multi
import Verif.Props.Q2Q
import Verif.Props.Qlm
import Verif.Props.QlmACH
import Verif.Props.QlmNum
import Verif.Props.RandomSheet
import Verif.Props.RandomShell
import Verif.Props.Range
import Verif.Props.RangeSolids
import Verif.Props.ReadMoments
import Verif.Props.RecRounding
import Verif.Props.RecRounding2
import Verif.Props.Rings
import Verif.Props.RotRounding
import Verif.Props.Rotations
import Verif.Props.Rotor
import Verif.Props.Rounding
import Verif.Props.ShapeClasses
import Verif.Props.ShapeHeap
import Verif.Props.Shapes
import Verif.Props.ShapesMake
import Verif.Props.Sheet
import Verif.Props.Shell
import Verif.Props.SolidRounding
import Verif.Props.SolidRounding2
import Verif.Props.Tolerance
import Verif.Props.Torque
import Verif.Props.TorqueRounding
import Verif.Props.TransRecurs
import Verif.Props.TransRounding
import Verif.Props.TranslYuk
import Verif.Props.Translations
import Verif.Props.Truncation
import Verif.Props.TwoCentre
import Verif.Props.TwoCentreRate
import Verif.Props.Units
import Verif.Props.WigRounding
import Verif.Props.WignerSymm
import Verif.Props.YukSheet
import Verif.Props.YukSphere
import Verif.Spec.Approx
import Verif.Spec.Body
import Verif.Spec.BodyForce
import Verif.Spec.ChainRounding
import Verif.Spec.ClebschGordan
import Verif.Spec.Euler
import Verif.Spec.FarField
import Verif.Spec.Field
import Verif.Spec.ForceRounding
import Verif.Spec.Gauss
import Verif.Spec.GlApprox
import Verif.Spec.Glib
import Verif.Spec.LowOrder
import Verif.Spec.MomRounding
import Verif.Spec.Moments
import Verif.Spec.Mpc
import Verif.Spec.Multipole
import Verif.Spec.Octave
import Verif.Spec.PointSolids
import Verif.Spec.Random
import Verif.Spec.ReadMulti
import Verif.Spec.RecRounding
import Verif.Spec.Rings
import Verif.Spec.Rotor
import Verif.Spec.Rounding
import Verif.Spec.ShapeHeap
import Verif.Spec.Shapes
import Verif.Spec.Sheet
import Verif.Spec.Solid
import Verif.Spec.SolidRounding
import Verif.Spec.Solids
import Verif.Spec.SolidsAch
import Verif.Spec.SolidsNum
import Verif.Spec.Spheres
import Verif.Spec.Tolerance
import Verif.Spec.TorqueRounding
import Verif.Spec.TransRounding
import Verif.Spec.Truncation
import Verif.Spec.Units
import Verif.Spec.WigRounding
import Verif.Spec.Wigner
import Verif.Spec.YukawaSheet
import Verif.Spec.YukawaSphere
