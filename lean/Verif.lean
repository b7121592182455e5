import Verif.Util.Props
import Verif.Float.Model
import Verif.Float.Props
import Verif.Deque.Props
import Verif.SmallStorage.Props
import Verif.Hash.Props
import Verif.Random.Props
import Verif.Random.SamplerProps
import Verif.Random.Streams
import Verif.Random.Uniform
import Verif.Random.UniformCap
import Verif.Grid.Props
import Verif.Layout.Props
import Verif.Raster.Props
import Verif.Raster.CubicModel
import Verif.Raster.Cubic
import Verif.Basis.Props
import Verif.SH.Props
import Verif.SH.Ortho
import Verif.SH.Addition
import Verif.SH.ZonalModel
import Verif.SH.Zonal
import Verif.SH.Convolve
import Verif.SH.Generate
import Verif.SH.ArithModel
import Verif.SH.Arith
import Verif.Duals.Props
import Verif.Path.Props
import Verif.Perlin.Props
import Verif.Mtx.Alias
import Verif.Perms.Props
import Verif.LU.Small
import Verif.Chol.Props
import Verif.Vec.Rotate
import Verif.Orthog.Props
import Verif.Quat.Exp
import Verif.Affine.Rotation
import Verif.Rect.Dist
import Verif.Rect.Measure
import Verif.Shape.FrustumRay
import Verif.Shape.NormalModel
import Verif.Shape.Normal
import Verif.Shape.NormalWrap
import Verif.Shape.NestModel
import Verif.Shape.Nest
import Verif.Shape.Plane
import Verif.Shape.Sat
import Verif.Shape.SimplexRay
import Verif.Shape.ProjectModel
import Verif.Shape.Average
import Verif.Shape.FaceLemmas
import Verif.Shape.Search
import Verif.Shape.Project
import Verif.Shape.ProjectProps
import Verif.Shape.GjkModel
import Verif.Shape.Gjk
import Verif.Shape.GjkLimit
import Verif.Index.Nodes
import Verif.Bins.Props
import Verif.Tree.Model
import Verif.Tree.Lists
import Verif.Tree.Rep
import Verif.Tree.Nodes
import Verif.Tree.Items
import Verif.Tree.Split
import Verif.Tree.Erase
import Verif.Tree.Props
import Verif.Tree.Refute
import Verif.Tree.Whole
import Verif.Storage.Model
import Verif.Storage.Props
import Verif.Storage.Shared
import Verif.Vec.RainbowModel
import Verif.Vec.Rainbow
import Verif.Mtx.DimsModel
import Verif.Mtx.Dims
import Verif.Mtx.MakeModel
import Verif.Mtx.Make
import Verif.Mtx.IterModel
import Verif.Mtx.Iter
import Verif.Duals.AssignModel
import Verif.Duals.Assign
import Verif.Vec.OpsModel
import Verif.Vec.Ops
import Verif.Raster.ObjectModel
import Verif.Raster.Object
import Verif.Float.VecModel
import Verif.Float.Vec
import Verif.Hash.ValueModel
import Verif.Hash.Value
import Verif.Float.TinyModel
import Verif.Float.Tiny
import Verif.SH.Inner
import Verif.Ieee.Boxes
import Verif.Ieee.Overflow
import Verif.Ieee.Agree
import Verif.Float.RangeModel
import Verif.Float.Range
import Verif.Float.GeomModel
import Verif.Float.Geom
import Verif.Shape.TraitModel
import Verif.Shape.Traits
import Verif.LU.FloatModel
import Verif.LU.FloatLemmas
import Verif.LU.FloatSub
import Verif.LU.Float
import Verif.Chol.FloatModel
import Verif.Chol.FloatLemmas
import Verif.Chol.Float
import Verif.Quat.FloatModel
import Verif.Quat.Float
import Verif.LU.SmallFloatModel
import Verif.LU.SmallFloat
import Verif.Vec.IntModel
import Verif.Vec.Int
import Verif.Rect.IntModel
import Verif.Rect.Int
import Verif.Grid.IntModel
import Verif.Grid.Int
import Verif.Tree.MoveModel
import Verif.Tree.Move
import Verif.Float.BoxModel
import Verif.Float.Box
import Verif.Float.QuadModel
import Verif.Float.Quad
import Verif.Float.Ball
import Verif.Float.BallEnds
import Verif.Float.LerpModel
import Verif.Float.Lerp
import Verif.Float.Modulo
import Verif.Float.Dist
import Verif.Float.CylDist
import Verif.Float.SimplexModel
import Verif.Float.Simplex
import Verif.Float.Orthog
import Verif.Float.Plane
import Verif.Float.GjkModel
import Verif.Float.Gjk
import Verif.Float.GjkRefuted
import Verif.Float.SatModel
import Verif.Float.Sat
import Verif.Float.AlignModel
import Verif.Float.Align
import Verif.Float.AlignUse
import Verif.Float.RotModel
import Verif.Float.Rot
import Verif.Float.RotUse
import Verif.Float.RotAbout
import Verif.Float.RotThm
import Verif.Float.RotOneModel
import Verif.Float.RotOne
import Verif.Float.PolyModel
import Verif.Float.Poly
import Verif.Float.NoiseModel
import Verif.Float.Noise
import Verif.Float.FormsModel
import Verif.Float.Forms
import Verif.Float.PathModel
import Verif.Float.PathF
import Verif.Float.RayProjModel
import Verif.Float.RayProj
import Verif.Float.DualModel
import Verif.Float.DualF
import Verif.Float.RasterModel
import Verif.Float.RasterF
import Verif.Float.SupportModel
import Verif.Float.Support
import Verif.Float.PartialModel
import Verif.Float.Partial
import Verif.Float.CylSupportModel
import Verif.Float.CylSupport
import Verif.Float.OrientedModel
import Verif.Float.Oriented
import Verif.Float.PlacedModel
import Verif.Float.Placed
import Verif.Float.FrustumModel
import Verif.Float.FrustumF
import Verif.Float.WrapModel
import Verif.Float.Wrap
import Verif.Float.ComposeModel
import Verif.Float.Compose
import Verif.Float.RayXfModel
import Verif.Float.RayXf
import Verif.Float.ExtProjModel
import Verif.Float.ExtProj
import Verif.Float.DilProjModel
import Verif.Float.DilProj
