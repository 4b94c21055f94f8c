import Verif.Props.Absorb
import Verif.Props.AbsorbTwisted
import Verif.Props.Amplitudes
import Verif.Props.Beams
import Verif.Props.Builder
import Verif.Props.Cascade
import Verif.Props.Convolution
import Verif.Props.Crystal
import Verif.Props.Draw
import Verif.Props.Eigentricks
import Verif.Props.Embed
import Verif.Props.Expansion
import Verif.Props.Extension
import Verif.Props.Ez
import Verif.Props.EzSpectrum
import Verif.Props.Factory
import Verif.Props.Fields
import Verif.Props.Helpers
import Verif.Props.History
import Verif.Props.Islands
import Verif.Props.Laid
import Verif.Props.Layer
import Verif.Props.Layout
import Verif.Props.Locate
import Verif.Props.Mirror
import Verif.Props.Mix
import Verif.Props.Multilayer
import Verif.Props.Parallel
import Verif.Props.Paraxial
import Verif.Props.Passive
import Verif.Props.Polarisation
import Verif.Props.Recipes
import Verif.Props.Reciprocity
import Verif.Props.Shortcuts
import Verif.Props.Status
import Verif.Props.Symmetry
import Verif.Props.Tmat
import Verif.Props.TmatFresnel
import Verif.Props.TmatLossyDevice
import Verif.Props.TmatPassive
import Verif.Props.TmatPhysics
import Verif.Props.TmatProject
import Verif.Props.TmatReciprocity
import Verif.Props.TmatStack
import Verif.Props.TmatSymmetry
import Verif.Props.TmatTurned
import Verif.Props.Transforms
import Verif.Props.Twisted
import Verif.Props.TwistedFields
import Verif.Props.TwistedQuery
import Verif.Props.TwistedReciprocity
import Verif.Props.TwistedSymmetry
import Verif.Props.Volume
import Verif.Props.Windows
import Verif.Props.Zone
import Verif.Axioms
