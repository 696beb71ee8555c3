import Verif.Undo.Props
import Verif.IdMap.Props
import Verif.Aabb.Props
import Verif.Spline.Deriv
import Verif.Msh.Data
import Verif.Msh.Counts
import Verif.ZSurf.GridNew
import Verif.ZSurf.Center
import Verif.Heal.Shape
import Verif.Heal.Indicator
import Verif.Heal.Best
import Verif.Brep.Geo
import Verif.Brep.Build
import Verif.Decomp.Demo
import Verif.Decomp.Depth
import Verif.Decomp.NestCore
import Verif.Decomp.Up
import Verif.Decomp.Genus
import Verif.Decomp.Jordan
import Verif.Decomp.Bridge
import Verif.Decomp.Keep
import Verif.Decomp.NestedProps
import Verif.Decomp.Total
import Verif.Decomp.TotalAdd
import Verif.Decomp.TotalDel
import Verif.Decomp.TotalJoin
import Verif.Decomp.TotalBridge
import Verif.Decomp.Check
import Verif.Decomp.Load
import Verif.Decomp.Hang
import Verif.Decomp.Reload
import Verif.Decomp.ReloadProps
import Verif.Plane.Demo
import Verif.Gmsh.Options
import Verif.Gmsh.Field
import Verif.Gmsh.Sync
import Verif.Gmsh.Shapes
import Verif.Gmsh.Mass
import Verif.Gmsh.Groups
import Verif.Gmsh.Ops
import Verif.Gmsh.Demo
import Verif.Approx.Hull
import Verif.Approx.Rect
import Verif.Approx.RectMin
import Verif.Approx.Examples
import Verif.Approx.CurveGrid
import Verif.Isec.Complete
import Verif.Front.Demo
import Verif.Merge.Demo
import Verif.Merge.Regions
import Verif.Merge.RegionsDemo
import Verif.Merge.RegionsAll
import Verif.Brep.Text
import Verif.Brep.TextProps
import Verif.Brep.TextModel
import Verif.Brep.FromBs
import Verif.Brep.Attach2
import Verif.Undo.Rel
import Verif.Decomp.Same
import Verif.Decomp.Short
import Verif.Front.Undo
import Verif.Front.UndoDemo
import Verif.Decomp.Planar
import Verif.Front.Plan
import Verif.Front.PlanDemo
import Verif.Plane.Angle
import Verif.Plane.Corner
import Verif.Plane.Count
import Verif.Plane.Divide
import Verif.Plane.DivideRun
import Verif.Plane.Exact
import Verif.Plane.Good
import Verif.Plane.Half
import Verif.Plane.Line
import Verif.Plane.Merge
import Verif.Plane.Model
import Verif.Plane.Partition
import Verif.Plane.Ray
import Verif.Plane.RayInd
import Verif.Plane.Sees
import Verif.Plane.Sep
import Verif.Plane.Split
import Verif.Plane.Tests
import Verif.Plane.Tiled
import Verif.Plane.BridgeDel
import Verif.Plane.HolePlaced
import Verif.Plane.HolePlacedDemo
import Verif.Plane.Regions
import Verif.Plane.RegionsDemo
import Verif.Plane.TiledDel
import Verif.Plane.TiledSplit
import Verif.Plane.Tiling
import Verif.Plane.TilingDemo
import Verif.Plane.Total
import Verif.Plane.TotalProps
import Verif.Plane.Nearest
import Verif.Front.Home
import Verif.Front.HomeDemo
import Verif.Front.Wedge
import Verif.Front.Total
import Verif.Front.TotalLine
import Verif.Front.TotalDemo
import Verif.Front.WedgeDemo
import Verif.Plane.Where
import Verif.Plane.Winding
import Verif.Plane.Depth
import Verif.Plane.Childs
import Verif.Plane.Wire
