import Verif.Model.Parser
import Mathlib.Data.List.Nodup
/-!
# The repository's own parser tests, evaluated on the model

These are tests of the model, not proofs about it: the expectations of `/repo/tests/parser/test_parser.py`, which the
authors' tests check on the code, hold of the model.
-/

namespace Verif.Conformance
open Verif

/-- The alphanumeric characters beyond ASCII that occur in the tests. -/
def alnum (c : Char) : Bool := c = 'ä' || c = 'ō'

/-- The default configuration of the parser. -/
def cfg : ParserCfg := .default alnum

/-- A literal. -/
def lit (s : Str) : Cmd := .lit s none

/-- A wildcard given by a plain name. -/
def wild (s : Str) (m : Option Method := none) : Cmd := .wild (.inl s) m []

/-- A sequence. -/
def seq (l : List Cmd) : Cmd := .seq l [] none

/-- A choice of one option with equal weights. -/
def oneOf (l : List Cmd) (m : Option Method := none) : Cmd := .variant (l.map fun c => (c, 1)) 1 1 c!"," m

/-- A choice of one of several literals. -/
def texts (l : List Str) (m : Option Method := none) : Cmd := oneOf (l.map lit) m

/-- The parser fails. -/
def fails (c : ParserCfg) (s : Str) : Bool := match parse c s with
  | .ok _ => false
  | .error _ => true

/-- `test_parser.py:26-44` `test_literal_characters`. -/
example : ∀ s ∈ [c!"hello world", c!"good-bye world", c!"good_bye world", c!"I, love. punctuation", c!"Test änderō",
    c!"Test [low emphasis]", c!"Test [low emphasis:0.4]", c!"Test (high emphasis)", c!"Test (high emphasis:0.4)",
    c!"Unmatched } bracket"], parse cfg s = .ok (lit s) := by decide +kernel

/-- `test_parser.py:46-58` `test_wildcard`. -/
example : ∀ s ∈ [c!"colours", c!"path/to/colours", c!"änder"], parse cfg (c!"__" ++ s ++ c!"__") = .ok (wild s) := by
  decide +kernel

/-- `test_parser.py:60-107` `test_wildcard_dynamic`. -/
example : ∀ p ∈ [
    (c!"path/to/${subject}", [lit c!"path/to/", .access c!"subject" (some (lit c!"subject"))]),
    (c!"${pallette}_colours", [.access c!"pallette" (some (lit c!"pallette")), lit c!"_colours"]),
    (c!"${pallette:warm}_colours", [.access c!"pallette" (some (lit c!"warm")), lit c!"_colours"]),
    (c!"locations/${room: dining room }/furniture",
      [lit c!"locations/", .access c!"room" (some (lit c!"dining room")), lit c!"/furniture"]),
    (c!"light/source/{indoor|outdoor}", [lit c!"light/source/", texts [c!"indoor", c!"outdoor"]])],
    parse cfg (c!"__" ++ p.1 ++ c!"__") = .ok (.wild (.inr (seq p.2)) none []) := by decide +kernel

/-- `test_parser.py:109-127` `test_sampling_method`. -/
example : ∀ p ∈ [(c!"colours", none, c!"colours"), (c!"~path/to/colours", some .random, c!"path/to/colours"),
    (c!"!änder", some .comb, c!"änder"), (c!"@änder", some .cyc, c!"änder")],
    parse cfg (c!"__" ++ p.1 ++ c!"__") = .ok (wild p.2.2 p.2.1) := by decide +kernel

/-- `test_parser.py:129-141`: wildcards beside each other and beside literals. -/
example : parse cfg c!"__colours__ __colours__" = .ok (seq [wild c!"colours", lit c!" ", wild c!"colours"]) ∧
    parse cfg c!",__colours__" = .ok (seq [lit c!",", wild c!"colours"]) ∧
    parse cfg c!"__colours__ world" = .ok (seq [wild c!"colours", lit c!" world"]) := by decide +kernel

/-- `test_parser.py:151-159` `test_basic_variant`. -/
example : parse cfg c!"{cat|dog}" = .ok (texts [c!"cat", c!"dog"]) := by decide +kernel

/-- `test_parser.py:161-176` `test_variant_with_sampling_method`. -/
example : parse cfg c!"{red|green|blue}" = .ok (texts [c!"red", c!"green", c!"blue"]) ∧
    parse cfg c!"{~red|green|blue}" = .ok (texts [c!"red", c!"green", c!"blue"] (some .random)) ∧
    parse cfg c!"{!red|green|blue}" = .ok (texts [c!"red", c!"green", c!"blue"] (some .comb)) ∧
    parse cfg c!"{!__test/colours__}" = .ok (oneOf [wild c!"test/colours"] (some .comb)) ∧
    parse cfg c!"{~1-3$$ and $$red|green|blue}" =
      .ok (.variant [(lit c!"red", 1), (lit c!"green", 1), (lit c!"blue", 1)] 1 3 c!" and " (some .random)) ∧
    parse cfg c!"{~0.2::red|0.4::green|0.6::blue}" =
      .ok (.variant [(lit c!"red", 2 / 10), (lit c!"green", 4 / 10), (lit c!"blue", 6 / 10)] 1 1 c!"," (some .random)) ∧
    parse cfg c!"{@0.2::red|0.4::green|0.6::blue}" =
      .ok (.variant [(lit c!"red", 2 / 10), (lit c!"green", 4 / 10), (lit c!"blue", 6 / 10)] 1 1 c!"," (some .cyc)) := by
  decide +kernel

/-- `test_parser.py:178-206`: characters in options, an empty option, a missing bracket, a wildcard as an option. -/
example : parse cfg c!"{new york|washing-ton!|änder}" = .ok (texts [c!"new york", c!"washing-ton!", c!"änder"]) ∧
    parse cfg c!"{|red|blue}" = .ok (oneOf [seq [], lit c!"red", lit c!"blue"]) ∧
    fails cfg c!"{cat|dog" = true ∧
    parse cfg c!"{__test/colours__|washington}" = .ok (oneOf [wild c!"test/colours", lit c!"washington"]) := by
  decide +kernel

/-- `test_parser.py:208-246`: sequences and choices as options. -/
example : parse cfg (c!"{My favourite colour is __colour__ and not __other_colour__|" ++
      c!"__colour__ is my favourite colour}") =
      .ok (oneOf [seq [lit c!"My favourite colour is ", wild c!"colour", lit c!" and not ", wild c!"other_colour"],
        seq [wild c!"colour", lit c!" is my favourite colour"]]) ∧
    parse cfg c!"{__test/colours__|{__test/shapes__|washington}}" =
      .ok (oneOf [wild c!"test/colours", oneOf [wild c!"test/shapes", lit c!"washington"]]) := by decide +kernel

/-- `test_parser.py:248-260` `test_variant_with_weights`. -/
example : ∀ p ∈ [(c!"{1::cat|2::dog|3::bird} test", (1 : Rat), (2 : Rat), (3 : Rat)),
    (c!"{0.2::cat|0.3::dog|0.4::bird} test", 2 / 10, 3 / 10, 4 / 10), (c!"{1::cat|dog|3::bird} test", 1, 1, 3)],
    parse cfg p.1 = .ok (seq [.variant [(lit c!"cat", p.2.1), (lit c!"dog", p.2.2.1), (lit c!"bird", p.2.2.2)] 1 1 c!","
      none, lit c!" test"]) := by decide +kernel

/-- `test_parser.py:262-283` `test_range`. -/
example : ∀ p ∈ [(c!"{2$$cat|dog|bird}", (2 : Int), (2 : Int), none), (c!"{1-2$$cat|dog|bird}", 1, 2, none),
    (c!"{1-3$$cat|dog|bird}", 1, 3, none), (c!"{-2$$cat|dog|bird}", 1, 2, none),
    (c!"{!1-2$$cat|dog|bird}", 1, 2, some .comb), (c!"{~1-2$$cat|dog|bird}", 1, 2, some .random)],
    parse cfg p.1 = .ok (.variant [(lit c!"cat", 1), (lit c!"dog", 1), (lit c!"bird", 1)] p.2.1 p.2.2.1 c!"," p.2.2.2) := by
  decide +kernel

example : parse cfg c!"{0-1$$a|b|c|d}" =
    .ok (.variant [(lit c!"a", 1), (lit c!"b", 1), (lit c!"c", 1), (lit c!"d", 1)] 0 1 c!"," none) := by decide +kernel

/-- `test_parser.py:285-309` `test_variant_delimiter`. -/
example : parse cfg c!"{2$$ and $$cat|dog|bird}" =
      .ok (.variant [(lit c!"cat", 1), (lit c!"dog", 1), (lit c!"bird", 1)] 2 2 c!" and " none) ∧
    parse cfg c!"I love {2$$|$$green|yellow|blue} roses" =
      .ok (seq [lit c!"I love ", .variant [(lit c!"green", 1), (lit c!"yellow", 1), (lit c!"blue", 1)] 2 2 c!"|" none,
        lit c!" roses"]) ∧
    fails cfg c!"{2$$ $ $$cat|dog|bird}" = true ∧
    fails cfg c!"{2$$  $$cat|dog|bird}" = false := by decide +kernel

/-- `test_parser.py:311-326` `test_variants_adjacent`. -/
example : parse cfg c!"{2$$cat|dog|bird}{3$$red|blue|green}" =
    .ok (seq [.variant [(lit c!"cat", 1), (lit c!"dog", 1), (lit c!"bird", 1)] 2 2 c!"," none,
      .variant [(lit c!"red", 1), (lit c!"blue", 1), (lit c!"green", 1)] 3 3 c!"," none]) := by decide +kernel

/-- `test_parser.py:328-352` `test_comments`. -/
example : parse cfg (c!"\n        one\n        two\n        three # comment\n        # A comment\n" ++
      c!"        {cat|dog|bird} # another comment\n        __wildcard_comment__# another comment\n        five\n        ") =
    .ok (seq [lit c!"\n        one\n        two\n        three  \n        ", texts [c!"cat", c!"dog", c!"bird"],
      lit c!"\n        ", wild c!"wildcard_comment", lit c!"\n        five\n        "]) := by decide +kernel

/-- `test_parser.py:354-362` `test_a1111_special_syntax_intact`. -/
example : ∀ s ∈ [c!"[cat|dog]", c!"[cat:dog:0.25]"], parse cfg s = .ok (lit s) := by decide +kernel

/-- `test_parser.py:364-391` `test_deep_propagation`. -/
example : parse cfg c!"A literal sentence" = .ok (lit c!"A literal sentence") ∧
    parse cfg c!"{RED|GREEN|BLUE}" = .ok (texts [c!"RED", c!"GREEN", c!"BLUE"]) ∧
    parse cfg c!"__wildcard__" = .ok (wild c!"wildcard") ∧
    parse cfg c!"{A|B|C} {D|E|g}" = .ok (seq [texts [c!"A", c!"B", c!"C"], lit c!" ", texts [c!"D", c!"E", c!"g"]]) := by
  decide +kernel

/-- `test_parser.py:393-415` `test_alternative_braces`. -/
example : ∀ p ∈ [(c!"<", c!">", c!"some literal string <A|B|__some/wildcard__>"),
    (c!"_", c!"_", c!"some literal string _A|B|__some/wildcard___"),
    (c!":", c!":", c!"some literal string :A|B|__some/wildcard__:"),
    (c!"&", c!"&", c!"some literal string &A|B|__some/wildcard__&"),
    (c!"[", c!"]", c!"some literal string [A|B|__some/wildcard__]"),
    (c!"<<:", c!":>>", c!"some literal string <<:A|B|__some/wildcard__:>>")],
    parse { cfg with variantStart := p.1, variantEnd := p.2.1 } p.2.2 =
      .ok (seq [lit c!"some literal string ", oneOf [lit c!"A", lit c!"B", wild c!"some/wildcard"]]) := by decide +kernel

/-- `test_parser.py:417-436` `test_alternative_wildcard_wrap`. -/
example : ∀ w ∈ [c!"&", c!"@@", c!"!!", c!"..", c!"~~", c!"**", c!"___"],
    parse { cfg with wildcardWrap := w } (c!"some literal string {A|B|" ++ w ++ c!"some/wildcard" ++ w ++ c!"}") =
      .ok (seq [lit c!"some literal string ", oneOf [lit c!"A", lit c!"B", wild c!"some/wildcard"]]) := by decide +kernel

/-- `test_parser.py:438-461` `test_variable_commands`. -/
example : ∀ p ∈ [(c!"?=", false, false), (c!"=", false, true), (c!"?=!", true, false), (c!"=!", true, true)],
    parse cfg (c!"${animal " ++ p.1 ++ c!" cat} the animal is ${animal:dog}") =
      .ok (seq [.assign c!"animal" (lit c!"cat") p.2.1 p.2.2, lit c!" the animal is ",
        .access c!"animal" (some (lit c!"dog"))]) := by decide +kernel

/-- `test_parser.py:463-482` `test_wildcard_variable_shorthand`. -/
example : ∀ p ∈ [([], []), (c!"(animal=bear)", [(c!"animal", lit c!"bear")]),
    (c!"(animal=fox,color=red)", [(c!"animal", lit c!"fox"), (c!"color", lit c!"red")]),
    (c!"(color={A|B|C})", [(c!"color", texts [c!"A", c!"B", c!"C"])])],
    parse cfg (c!"__foo" ++ p.1 ++ c!"__") = .ok (.wild (.inl c!"foo") none p.2) := by decide +kernel

end Verif.Conformance
