import Verif.Prelude
import Verif.Props.MaskIter
import Verif.Props.Remap
import Verif.Props.TimeIntegration
import Verif.Props.Stability
import Verif.Props.MCP
import Verif.Props.Sparse
import Verif.Props.ContactPenalty
import Verif.Props.Friction
import Verif.Props.ContactBasis
import Verif.Props.ParForce
import Verif.Props.ContactJacobian
import Verif.Props.LineSearchAssist
import Verif.Props.Solver
import Verif.Props.Newton
import Verif.Props.Mesh
import Verif.Props.MeshState
import Verif.Props.MeshMass
import Verif.Props.Converged
import Verif.Props.ScenePlay
import Verif.Props.Utils
import Verif.Props.Material
import Verif.Props.EdgeAngle
import Verif.Props.EdgeHessian
import Verif.Props.EdgeBending
import Verif.Props.InteriorEdge
import Verif.Props.Dihedral
import Verif.Props.LinSolve
import Verif.Props.NewtonSteps
import Verif.Props.TetNh
import Verif.Props.TetNhHessian
import Verif.Props.TetSnh
import Verif.Props.TriNh
import Verif.Props.TriNhHessian
import Verif.Props.AssemblyTet
import Verif.Props.AssemblyShell
import Verif.Props.GravityInertia
import Verif.Props.Objective
import Verif.Props.Jacobian
import Verif.Props.Motion
import Verif.Props.Volume
import Verif.Props.Pressure
import Verif.Props.Kernel
import Verif.Props.FieldWeights
import Verif.Props.FieldJacobian
import Verif.Props.FieldSurface
import Verif.Props.Neighborhood
import Verif.Props.NeighborhoodStep
import Verif.Props.Project
import Verif.Props.Contact
import Verif.Model.FieldHessian
import Verif.Lemmas.FieldHessian
import Verif.Props.FieldHessianPath
import Verif.Props.FieldHessian
import Verif.Props.FieldHessianSample
import Verif.Props.FieldHessianNormal
import Verif.Props.FieldHessianMixed
import Verif.Props.FieldSecond
import Verif.Model.ContactHessian
import Verif.Props.ContactHessian
import Verif.Model.Export
import Verif.Props.Export
import Verif.Model.Touching
import Verif.Props.Touching
import Verif.Model.ContactSetup
import Verif.Props.ContactSetup
import Verif.Model.BaseRadius
import Verif.Props.BaseRadius
import Verif.Model.Sliding
import Verif.Props.Sliding
import Verif.Model.LaggedFriction
import Verif.Props.LaggedFriction
import Verif.Model.ContactDerivative
import Verif.Lemmas.ContactDerivative
import Verif.Props.ContactDerivative
import Verif.Model.FrictionJacobian
import Verif.Lemmas.FrictionJacobian
import Verif.Lemmas.FrictionPath
import Verif.Lemmas.FrictionForms
import Verif.Props.FrictionJacobian
import Verif.Model.Gripping
import Verif.Lemmas.FrictionPattern
import Verif.Props.Gripping
import Verif.Model.FrameFiles
import Verif.Props.FrameFiles
import Verif.Model.GltfExport
import Verif.Lemmas.GltfExport
import Verif.Props.GltfExport
import Verif.Model.Precond
import Verif.Props.Precond
import Verif.Model.Projection
import Verif.Lemmas.Projection
import Verif.Props.Projection
import Verif.Props.ProjectionWitness
import Verif.Model.MatrixFree
import Verif.Lemmas.MatrixFree
import Verif.Props.MatrixFree
import Verif.Props.MatrixFreeWitness
import Verif.Model.FieldMesh
import Verif.Props.FieldMesh
import Verif.Props.FieldMeshWitness
import Verif.Model.SurfaceBuild
import Verif.Props.SurfaceBuild
import Verif.Props.SurfaceBuildWitness
import Verif.Model.Interrupt
import Verif.Props.Interrupt
import Verif.Model.VelocityClear
import Verif.Props.VelocityClear
import Verif.Model.ReadBack
import Verif.Props.ReadBack
import Verif.Model.Handles
import Verif.Lemmas.Handles
import Verif.Props.Handles
import Verif.Model.Hooke
import Verif.Props.Hooke
import Verif.Model.Restart
import Verif.Props.Restart
import Verif.Model.PluginScene
import Verif.Props.PluginScene
import Verif.Model.NodeParams
import Verif.Props.NodeParams
import Verif.Lemmas.Rotation
import Verif.Lemmas.FrameElastic
import Verif.Lemmas.FrameContact
import Verif.Props.Frame
import Verif.Props.NewtonTrend
import Verif.Lemmas.NumberingElastic
import Verif.Lemmas.NumberingProblem
import Verif.Lemmas.NumberingContact
import Verif.Lemmas.NumberingFriction
import Verif.Props.Numbering
import Verif.Lemmas.UnitsElastic
import Verif.Lemmas.UnitsContact
import Verif.Model.EdgeReference
import Verif.Props.EdgeReference
import Verif.Props.Units
import Verif.Model.DerivativeTest
import Verif.Props.DerivativeTest
import Verif.Props.DerivativeTestWitness
import Verif.Model.SceneFile
import Verif.Lemmas.SceneFile
import Verif.Props.SceneFile
import Verif.Model.SurfaceVelocity
import Verif.Props.SurfaceVelocity
import Verif.Props.SurfaceVelocityWitness
import Verif.Model.SurfaceQuery
import Verif.Lemmas.SurfaceQuery
import Verif.Props.SurfaceQuery
import Verif.Props.SurfaceQueryHessian
import Verif.Props.SurfaceQueryWitness
import Verif.Model.ContactCoords
import Verif.Props.ContactCoords
import Verif.Model.DirectSolve
import Verif.Lemmas.DirectSolve
import Verif.Props.DirectSolve
import Verif.Model.StepReport
import Verif.Props.StepReport
import Verif.Model.ExtScal
import Verif.Props.FieldMixed
import Verif.Model.NeighborReport
import Verif.Props.NeighborReport
import Verif.Model.FrictionExport
import Verif.Props.FrictionExport
import Verif.Model.StepLimit
import Verif.Props.StepLimit
import Verif.Model.PointConstraint
import Verif.Props.PointConstraint
import Verif.Props.PointConstraintHessian
import Verif.Props.PointConstraintWitness
import Verif.Model.PointImpulse
import Verif.Props.PointImpulse
import Verif.Props.Spin
import Verif.Props.Gas
import Verif.Props.Apart
import Verif.Props.ApartJacobian
import Verif.Props.ApartFriction
import Verif.Props.ApartGripping
import Verif.Props.RigidMaterial
import Verif.Props.ApartLocal
import Verif.Props.Timings
import Verif.Props.Stats
import Verif.Props.CInterface
import Verif.Props.ImplicitNode
import Verif.Props.Merit
