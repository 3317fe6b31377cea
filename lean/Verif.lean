import Verif.Props.C01_Registry
import Verif.Props.C02_Plugin
import Verif.Props.C03_Locator
import Verif.Props.C05_Context
import Verif.Props.C07_AssetGroup
import Verif.Props.C09_Reload
import Verif.Props.C12_Archive
import Verif.Props.C13_SaveLoad
import Verif.Props.C15_ClassState
import Verif.Props.C16_Json
import Verif.Props.C17_Parallel
import Verif.Props.C20_Scheduler
import Verif.Props.C22_Atomic
import Verif.Props.C23_Film
import Verif.Props.C26_Export
import Verif.Props.C28_Dist
import Verif.Props.C30_Bound
import Verif.Props.C32_Math
import Verif.Props.C36_BvhBuild
import Verif.Props.C35_Intersect
import Verif.Props.C39_Scene
import Verif.Props.C40_Traverse
import Verif.Props.C43_Surface
import Verif.Props.C45_Material
import Verif.Props.C76_Reciprocity
import Verif.Props.C46_Light
import Verif.Props.C46_Env
import Verif.Props.C47_Camera
import Verif.Props.C57_Volume
import Verif.Props.C58_Medium
import Verif.Props.C59_Phase
import Verif.Props.C46_Path
import Verif.Props.C48_Connect
import Verif.Props.C49_Bidir
import Verif.Props.C50_Mis
import Verif.Props.C51_Weight
import Verif.Props.C53_Roulette
import Verif.Props.C77_Strategy
import Verif.Props.C54_Once
import Verif.Props.C55_Enumerate
import Verif.Props.C56_Seed
import Verif.Props.C69_Normalise
import Verif.Props.C60_Obj
import Verif.Props.C61_Faces
import Verif.Props.C62_Model
import Verif.Props.C66_Texture
import Verif.Props.C67_Mesh
import Verif.Props.C67_Pbrt
import Verif.Props.C64_Logger
import Verif.Props.C65_Progress
import Verif.Props.C63_Pbrt
import Verif.Props.C80_Solid
import Verif.Props.C80_Density
import Verif.Props.C80_Linear
import Verif.Props.C80_Material
import Verif.Props.C80_Glossy
import Verif.Props.C80_Mixture
import Verif.Props.C80_Nested
import Verif.Props.C80_Phase
import Verif.Props.C80_Camera
import Verif.Props.C80_Light
import Verif.Props.C80_Area
import Verif.Props.C80_Direct
import Verif.Props.C80_Env
import Verif.Props.C80_EnvLight
import Verif.Spec.Estimate
import Verif.Spec.Traced
import Verif.Spec.Parts
import Verif.Props.C81_Core
import Verif.Props.C81_Material
import Verif.Props.C81_Select
import Verif.Props.C81_Light
import Verif.Props.C81_Area
import Verif.Spec.Transport
import Verif.Props.C82_Walk
import Verif.Props.C82_Nee
import Verif.Props.C82_Path
import Verif.Props.C82_Lights
import Verif.Props.C82_Material
import Verif.Props.C82_Scene
import Verif.Props.C82_Direct
import Verif.Props.C82_Sky
import Verif.Props.C82_Example
import Verif.Props.C82_Area
import Verif.Props.C82_Lamps
import Verif.Props.C82_Lamp
import Verif.Props.C83_Sah
import Verif.Spec.Medium
import Verif.Props.C84_Core
import Verif.Props.C84_Medium
import Verif.Props.C84_Volumes
import Verif.Model.EmptyMedium
import Verif.Props.C84_Empty
import Verif.Spec.Fog
import Verif.Props.C85_Walk
import Verif.Props.C85_Nee
import Verif.Props.C85_Scene
import Verif.Props.C85_Homogeneous
import Verif.Props.C85_Sequence
import Verif.Props.C85_Heterogeneous
import Verif.Props.C85_Example
import Verif.Props.C86_Adjoint
import Verif.Props.C86_Area
import Verif.Props.C86_Emission
import Verif.Props.C86_Scene
import Verif.Props.C86_Surface
import Verif.Props.C86_Walk
import Verif.Props.C86_Trace
import Verif.Props.C86_Film
import Verif.Props.C86_Light
import Verif.Props.C86_LightTracing
import Verif.Props.C86_Example
import Verif.Props.C86_Mirror
import Verif.Model.BidirRender
import Verif.Props.C87_Chain
import Verif.Props.C87_Path
import Verif.Props.C87_Order
import Verif.Props.C87_Closed
import Verif.Props.C87_Link
import Verif.Props.C87_Value
import Verif.Props.C87_Join
import Verif.Props.C87_Step
import Verif.Props.C87_Walk
import Verif.Props.C87_Lamp
import Verif.Props.C87_Mass
import Verif.Props.C87_Share
import Verif.Props.C87_Mix
import Verif.Props.C87_Bdpt
import Verif.Props.C87_Scene
import Verif.Props.C87_Bidirectional
import Verif.Props.C87_Example
import Verif.Model.BdptOptRender
import Verif.Props.C88_Alpha
import Verif.Props.C88_Contrb
import Verif.Props.C88_Run
import Verif.Props.C88_Drive
import Verif.Props.C88_Bare
import Verif.Props.C88_Fixup
import Verif.Props.C88_Value
import Verif.Props.C88_Mix
import Verif.Props.C88_Image
import Verif.Props.C88_Cached
import Verif.Props.C88_Example
import Verif.Props.C88_Connects
import Verif.Model.Flatten
import Verif.Props.C37_Any
import Verif.Props.C89_Query
import Verif.Props.C38_Geom
import Verif.Props.C38_Built
import Verif.Model.Raycast
import Verif.Props.C90_Raycast
import Verif.Model.Fpex
import Verif.Model.AssetTree
import Verif.Props.C91_Fpex
import Verif.Props.C92_AssetTree
import Verif.Model.AccelLib
import Verif.Props.C93_Instances
import Verif.Props.C93_Accels
import Verif.Props.C93_Instanced
import Verif.Model.VolRaycast
import Verif.Props.C94_VolRaycast
import Verif.Props.C94_Bounds
import Verif.Props.C94_Converge
import Verif.Model.CameraView
import Verif.Props.C95_CameraView
import Verif.Model.PyConv
import Verif.Props.C96_PyConv
import Verif.Model.EmbreeParams
import Verif.Props.C97_EmbreeParams
import Verif.Model.PyLife
import Verif.Props.C98_PyLife
import Verif.Model.Ao
import Verif.Props.C99_Ao
import Verif.Spec.Lamps
import Verif.Props.C100_Walk
import Verif.Props.C100_Lamps
import Verif.Props.C100_Scene
import Verif.Props.C100_Example
import Verif.Props.C82_EnvMap
import Verif.Props.C82_Map
import Verif.Props.C85_EnvMap
import Verif.Spec.FogLamps
import Verif.Props.C101_Walk
import Verif.Props.C101_Lamps
import Verif.Props.C101_Scene
import Verif.Props.C101_Example
import Verif.Model.PyTrampoline
import Verif.Spec.PyComponent
import Verif.Props.C102_Python
import Verif.Model.PyParallel
import Verif.Props.C103_Gil
import Verif.Props.C104_Array
import Verif.Props.C104_View
import Verif.Props.C104_Stale
import Verif.Model.FilmView
import Verif.Spec.FilmView
import Verif.Props.C86_Sources
import Verif.Props.C86_Lit
import Verif.Props.C86_Bulb
import Verif.Props.C86_Beam
import Verif.Props.C86_Sun
import Verif.Props.C86_Sky
import Verif.Props.C86_Dome
import Verif.Model.Plugins
import Verif.Spec.Plugins
import Verif.Props.C72_Scope
import Verif.Props.C105_Plugins
import Verif.Props.C106_Threads
import Verif.Model.SceneBound
import Verif.Props.C107_Extent
import Verif.Model.TinyObj
import Verif.Props.C108_Plugin
import Verif.Props.C82_Triangles
import Verif.Props.C86_Nearest
import Verif.Props.C82_Blend
import Verif.Props.C82_Finish
import Verif.Props.C82_Scenes
import Verif.Spec.Skins
import Verif.Spec.Masks
import Verif.Spec.Outdoors
import Verif.Props.C82_Skins
import Verif.Props.C45_Masks
import Verif.Props.C45_MasksLit
import Verif.Props.C82_Outdoors
import Verif.Spec.Lights
import Verif.Props.C86_Outdoors
import Verif.Props.C100_Outdoors
import Verif.Props.C87_Scenes
import Verif.Model.Poll
import Verif.Spec.Poll
import Verif.Props.C109_Poll
import Verif.Model.LogThreads
import Verif.Props.C110_LogThreads
