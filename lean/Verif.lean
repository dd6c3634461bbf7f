import Verif.Props.Text
import Verif.Props.Language
import Verif.Props.Choice
import Verif.Props.Combinatorial
import Verif.Props.Variables
import Verif.Props.Nesting
import Verif.Props.Random
import Verif.Props.Cyclical
import Verif.Props.Deterministic
import Verif.Props.Counting
import Verif.Props.Names
import Verif.Props.Files
import Verif.Props.Tree
import Verif.Props.Roots
import Verif.Props.Keywords
import Verif.Props.Links
import Verif.Props.Bytes
import Verif.Props.Entries
import Verif.Props.Crash
import Verif.Props.Footprint
import Verif.Props.Edits
import Verif.Props.WrittenOut
import Verif.Props.Renaming
import Verif.Props.Proportions
import Verif.Props.Reordering
import Verif.Props.Laws
import Verif.Props.Abbreviations
import Verif.Props.Bits
import Verif.Props.Translate
import Verif.Props.Circular
import Verif.Props.FloatBits
import Verif.Props.Wider
import Verif.Props.Lone
import Verif.Props.Relabel
import Verif.Props.Encodings
import Verif.Props.LinkWrites
import Verif.Props.Unending
import Verif.Props.Starving
import Verif.Props.Oddities
import Verif.Props.Manager
import Verif.Props.Seeds
import Verif.Props.Generators
import Verif.Props.Magic
import Verif.Props.Reachable
import Verif.Props.Parser
import Verif.Props.Marks
import Verif.Props.Comments
import Verif.Props.System
import Verif.Props.Listing
import Verif.Props.Chances
import Verif.Props.Schedule
import Verif.Props.Symbols
import Verif.Props.Grammar
import Verif.Props.Causes
import Verif.Props.Hangs
import Verif.Props.Collections
import Verif.Props.Builders
import Verif.Props.Periodic
import Verif.Props.Agree
import Verif.Props.Rounding
import Verif.Props.Generate
import Verif.Props.Bangs
import Verif.Props.MagicRules
import Verif.Props.Mixed
import Verif.Props.Shuffled
import Verif.Props.Uniform
import Verif.Props.Composed
import Verif.Props.AgreeWild
import Verif.Conformance.Parser
import Verif.Conformance.Wildcards
import Verif.Conformance.Samplers
import Verif.Conformance.Generators
