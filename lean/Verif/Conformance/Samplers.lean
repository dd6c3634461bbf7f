import Verif.Conformance.Parser
import Verif.Conformance.Wildcards
import Verif.Model.Generators
/-!
# The repository's own sampler tests, evaluated on the model

Tests of the model, not proofs about it.  Where the tests replace the random choices by given ones, the random
generator here draws the numbers that make these choices.
-/

namespace Verif.Conformance
open Verif

/-- A random generator that reads its draws from a list: a number for an index, tenths for `random()`. -/
def script : Rng (List Nat) where
  arith := .exact
  below n w := (⟨w.headD 0 % (n + 1), Nat.mod_lt _ (Nat.succ_pos n)⟩, w.tail)
  unit w :=
    let k : Fin 10 := ⟨w.headD 0 % 10, Nat.mod_lt _ (by decide)⟩
    (⟨(k.val : Rat) / 10, tenths k⟩, w.tail)
where
  tenths : ∀ k : Fin 10, 0 ≤ (k.val : Rat) / 10 ∧ (k.val : Rat) / 10 < 1 := by decide +kernel

/-- `conftest.py`: the sampling context with the manager of the tests. -/
def scfg (ww : Str) (unknown : Option Cmd := none) (ignoreWs : Bool := false) : SysCfg Nat (List Nat) :=
  ⟨wcfg ww, cfg, script, ignoreWs, unknown⟩

/-- The context of a method. -/
def ctxOf (m : Method) : Ctx := ⟨m, [], []⟩

/-- The first `k` prompts of a template or command and how the iteration ended, with given draws. -/
def run (m : Method) (p : Prompt) (k : Nat) (draws : List Nat := []) (ww : Str := c!"__") :
    List Str × Stop (Sys Nat (List Nat)) :=
  samplePrompts (system (scfg ww)) 60 (ctxOf m) p k ⟨newMgr disk 0, draws⟩

/-- `list(context.sample_prompts(template, k))`; nothing if it raises. -/
def listOf (m : Method) (s : Str) (k : Nat) (draws : List Nat := []) (ww : Str := c!"__") : Option (List Str) :=
  match listPrompts (system (scfg ww)) 60 (ctxOf m) s (some k) ⟨newMgr disk 0, draws⟩ with
  | .ok l _ => some l
  | _ => none

/-- The methods. -/
def methods : List Method := [.comb, .cyc, .random]

/-- All pairs of different elements. -/
def cross (sep : Str) (a b : List Str) : List Str :=
  a.flatMap fun x => (b.filter (· ≠ x)).map fun y => x ++ sep ++ y

/-- A choice of literals with bounds. -/
def choice (l : List Str) (lo hi : Int) (sep : Str := c!",") : Cmd :=
  (variantFromLiterals l none lo hi sep none).getD (lit [])

/-- Three colours. -/
def rgb : List Str := [c!"red", c!"green", c!"blue"]
/-- Numbers. -/
def ott : List Str := [c!"one", c!"two", c!"three"]
/-- Shapes. -/
def shapes : List Str := [c!"circles", c!"squares", c!"triangles"]
/-- The values of `colors*`. -/
def colours : List Str := [c!"blue", c!"green", c!"red", c!"yellow"]


/-! ## `tests/samplers/test_common.py` -/

/-- `test_common.py:53-57`, `:78-85`: literals in a sequence. -/
example : ∀ m ∈ methods,
    (run m (.inr (sequenceFromLiterals [.inl c!"one", .inl c!" ", .inl c!"two", .inl c!" ", .inl c!"three"] [] none)) 1).1 =
      [c!"one two three"] := by decide +kernel

/-- `test_common.py:60-65` `test_custom_separator`, `:70-73` `test_single_literal`. -/
example : ∀ m ∈ methods, (run m (.inr (.seq [lit c!"A", lit c!"sentence"] c!"|" none)) 1).1 = [c!"A|sentence"] ∧
    (run m (.inr (lit c!"one")) 1).1 = [c!"one"] := by decide +kernel

/-- The generator stopped. -/
def stopped {W : Type} : Stop W → Bool
  | .stop _ => true
  | _ => false

/-- `test_common.py:89-100`: no option, one option. -/
example : ∀ m ∈ methods, (run m (.inr (.variant [] 1 1 c!"," none)) 1).1 = [] ∧
    stopped (run m (.inr (.variant [] 1 1 c!"," none)) 1).2 = true ∧
    (run m (.inr (choice [c!"one"] 1 1)) 1).1 = [c!"one"] := by decide +kernel

/-- `test_common.py:102-130` `test_multiple_variant`. -/
example :
    (run .random (.inr (choice ott 1 1)) 4 [0, 0, 0, 9, 0, 5, 0, 0]).1 = [c!"one", c!"three", c!"two", c!"one"] ∧
    (run .cyc (.inr (choice ott 1 1)) 5).1 = [c!"one", c!"two", c!"three", c!"one", c!"two"] ∧
    (run .comb (.inr (choice ott 1 1)) 5).1 = ott := by decide +kernel

/-- `test_common.py:132-165` `test_variant_with_literal`. -/
example :
    let c := seq [choice ott 1 1, lit c!" circles"]
    (run .random (.inr c) 4 [0, 9, 0, 9, 0, 0, 0, 5]).1 =
      [c!"three circles", c!"three circles", c!"one circles", c!"two circles"] ∧
    (run .cyc (.inr c) 5).1 = [c!"one", c!"two", c!"three", c!"one", c!"two"].map (· ++ c!" circles") ∧
    (run .comb (.inr c) 5).1 = ott.map (· ++ c!" circles") := by decide +kernel

/-- `test_common.py:167-179` `test_variant_with_zero_bound`. -/
example : ∀ m ∈ methods, (run m (.inr (choice ott 0 0)) 1).1 = [[]] := by decide +kernel

/-- `test_common.py:181-256` `test_variant_with_bound`, `test_variant_with_bound_and_sep`. -/
example : ∀ sep ∈ [c!",", c!" and "],
    (run .random (.inr (choice ott 1 2 sep)) 4 [0, 9, 1, 9, 0, 0, 0, 1, 5, 9]).1 =
      [c!"three", c!"three" ++ sep ++ c!"one", c!"one", c!"two" ++ sep ++ c!"three"] ∧
    (run .cyc (.inr (choice ott 1 2 sep)) 12).1 = ott ++ cross sep ott ott ++ ott ∧
    (run .comb (.inr (choice ott 1 2 sep)) 12).1 = ott ++ cross sep ott ott := by decide +kernel

/-- `test_common.py:258-304` `test_variant_with_wildcard`. -/
example : ∀ ww ∈ wraps, ∀ sep ∈ [c!",", c!" and "],
    let c : Cmd := .variant [(wild c!"colors*", 1)] 2 2 sep none
    (run .random (.inr c) 2 [0, 6, 9, 0, 0, 5] ww).1 = [c!"red" ++ sep ++ c!"yellow", c!"blue" ++ sep ++ c!"red"] ∧
    (run .cyc (.inr c) 24 [] ww).1 = cross sep colours colours ++ cross sep colours colours ∧
    (run .comb (.inr c) 24 [] ww).1 = cross sep colours colours := by decide +kernel

/-- `test_common.py:306-347` `test_variant_with_wildcard_and_high_bounds`. -/
example :
    let c : Cmd := .variant [(wild c!"colors-cold", 1)] 3 3 c!"," none
    let cold := [c!"blue", c!"green"]
    (run .random (.inr c) 1).1 = [c!"blue,green"] ∧
    (run .cyc (.inr c) 4).1 = cross c!"," cold cold ++ cross c!"," cold cold ∧
    (run .comb (.inr c) 4).1 = cross c!"," cold cold := by decide +kernel

/-- `test_common.py:349-400` `test_two_variants`; all pairs are of different words. -/
example :
    let c := seq [choice rgb 1 1, lit c!" ", choice shapes 1 1]
    (run .random (.inr c) 2 [0, 0, 0, 9, 0, 9, 0, 0]).1 = [c!"red triangles", c!"blue circles"] ∧
    (run .cyc (.inr c) 3).1 = [c!"red circles", c!"green squares", c!"blue triangles"] ∧
    (run .comb (.inr c) 9).1 = cross c!" " rgb shapes := by decide +kernel

/-- `test_common.py:402-453` `test_varied_prompt`. -/
example :
    let c := seq [choice [c!"red", c!"green"] 1 1, lit c!" ", choice shapes 1 1, lit c!" ", lit c!"are", lit c!" ",
      lit c!"cool"]
    (run .cyc (.inr c) 2).1 = [c!"red circles are cool", c!"green squares are cool"] ∧
    (run .comb (.inr c) 6).1 = (cross c!" " [c!"red", c!"green"] shapes).map (· ++ c!" are cool") := by decide +kernel

/-- `test_common.py:456-512` `test_basic_wildcard`, `test_wildcard_with_literal`. -/
example : ∀ ww ∈ wraps,
    let c := sequenceFromLiterals [.inr (wild c!"colors*"), .inl c!" ", .inl c!"are", .inl c!" ", .inl c!"cool"] [] none
    (run .random (.inr (wild c!"colors*")) 4 [2, 0, 3, 1] ww).1 = [c!"red", c!"blue", c!"yellow", c!"green"] ∧
    (run .cyc (.inr (wild c!"colors*")) 8 [] ww).1 = colours ++ colours ∧
    (run .comb (.inr (wild c!"colors*")) 8 [] ww).1 = colours ∧
    (run .random (.inr c) 4 [2, 0, 3, 1] ww).1 =
      [c!"red", c!"blue", c!"yellow", c!"green"].map (· ++ c!" are cool") ∧
    (run .cyc (.inr c) 8 [] ww).1 = (colours ++ colours).map (· ++ c!" are cool") ∧
    (run .comb (.inr c) 8 [] ww).1 = colours.map (· ++ c!" are cool") := by decide +kernel

/-- `test_common.py:514-566` `test_wildcard_with_variant`. -/
example :
    let c := seq [wild c!"colors*", lit c!" ", choice shapes 1 1]
    (run .random (.inr c) 2 [6, 0, 9, 0, 0, 0]).1 = [c!"red triangles", c!"blue circles"] ∧
    (run .cyc (.inr c) 10).1 = [c!"blue circles", c!"green squares", c!"red triangles", c!"yellow circles",
      c!"blue squares", c!"green triangles", c!"red circles", c!"yellow squares", c!"blue triangles",
      c!"green circles"] ∧
    (run .comb (.inr c) 12).1 = cross c!" " colours shapes := by decide +kernel

/-- The context of the tests that replace `get_values`. -/
def withValues (values : List Str) : Env (Sys Nat (List Nat)) :=
  { system (scfg c!"__") with getValues := fun _ => pure (values.map (⟨·, none⟩)) }

/-- `test_common.py:568-600` `test_variant_nested_in_wildcard`. -/
example :
    let E := withValues [c!"{red|pink}", c!"green", c!"blue"]
    let p : Prompt := .inr (seq [wild c!"colours"])
    (samplePrompts E 60 (ctxOf .cyc) p 6 ⟨newMgr disk 0, []⟩).1 =
      [c!"red", c!"green", c!"blue", c!"pink", c!"green", c!"blue"] ∧
    (samplePrompts E 60 (ctxOf .comb) p 6 ⟨newMgr disk 0, []⟩).1 = [c!"red", c!"pink", c!"green", c!"blue"] := by
  decide +kernel

/-- `test_common.py:602-635` `test_wildcard_nested_in_wildcard`. -/
example : ∀ ww ∈ wraps,
    (run .cyc (.inr (seq [wild c!"referencing-colors"])) 9 [] ww).1 = [c!"blue", c!"red", c!"green", c!"yellow", c!"blue",
      c!"red", c!"green", c!"yellow", c!"blue"] ∧
    (run .comb (.inr (seq [wild c!"referencing-colors"])) 9 [] ww).1 = [c!"blue", c!"green", c!"red", c!"yellow"] := by
  decide +kernel

/-- `test_common.py:637-720`: the first prompt of templates with wildcards and variables; with random sampling and the
first choice everywhere the first of the possible ones. -/
example : ∀ ww ∈ wraps, ∀ m ∈ methods, ∀ p ∈ [
    (c!"${temp=cold}wearing __colors-${temp}__ suede shoes", c!"wearing blue suede shoes"),
    (c!"wearing __colors-${temp:cold}__ suede shoes", c!"wearing blue suede shoes"),
    (c!"wearing __colors-${temp}__ suede shoes", c!"wearing " ++ ww ++ c!"colors-temp" ++ ww ++ c!" suede shoes"),
    (c!"${genus=mammals}${species=feline}__animals/${genus:reptiles}/${species:snakes}__", c!"cat"),
    (c!"${genus=reptiles}__animals/${genus}/*__", c!"cobra"),
    (c!"${genus=mammals}__animal__", c!"cat"),
    (c!"__animal(genus=mammals)__", c!"cat"),
    (c!"${car=!{porsche|john_deere}}a __cars/${car}/types__ made by __cars/${car}/name__",
      c!"a sports car made by Porsche"),
    (c!"${animal=cat}the animal is ${animal:dog}", c!"the animal is cat"),
    (c!"the animal is ${animal:dog}", c!"the animal is dog"),
    (c!"${a =! foo}${a}", c!"foo")], (run m (.inl p.1) 1 [] ww).1 = [p.2] := by decide +kernel

/-- `test_common.py:725-750` `test_immediate_variable_commands`: the same draws, with and without `!`. -/
example :
    (run .random (.inl c!"${number=!{1|2|3|4|5}}the number is ${number}") 4 [0, 9, 0, 0, 0, 5, 0, 3]).1 =
      [c!"the number is 5", c!"the number is 5", c!"the number is 5", c!"the number is 5"] ∧
    (run .random (.inl c!"${number={1|2|3|4|5}}the number is ${number}") 4 [0, 9, 0, 0, 0, 5, 0, 3]).1 =
      [c!"the number is 5", c!"the number is 1", c!"the number is 3", c!"the number is 2"] := by decide +kernel

/-- `test_common.py:758-797` `test_preserve_variable`. -/
example : ∀ draws ∈ [[], [9, 9, 9, 9, 9, 9, 9, 9, 9, 9, 9, 9, 9, 9, 9, 9]], ∀ p ∈ [
    (c!"${season=summer} ${temp=cold} ${location=north}__drink/beverage__",
      [c!"a glass of iced tea", c!"a glass of iced pop"]),
    (c!"${season=summer} ${temp=cold} ${location=south}__drink/winter/beverage__", [c!"a mug of hot coffee"]),
    (c!"${season=summer} ${temp=cold}__drink/winter/beverage__", [c!"a mug of hot tea"]),
    (c!"__drink/summer/beverage__", [c!"a glass of iced sweet tea", c!"a glass of iced soda"]),
    (c!"${location=north}__drink/summer/beverage__", [c!"a glass of iced tea", c!"a glass of iced pop"])],
    (run .random (.inl p.1) 1 draws).1.map strip ∈ p.2.map ([·]) := by decide +kernel

/-- The first result of `${a}` with an unknown variable value: an error is `none`. -/
def unknownVar (unknown : Option Cmd) : Option (List Str) :=
  match samplePrompts (system (scfg c!"__" unknown)) 60 (ctxOf .random) (.inl c!"${a}") 1 ⟨newMgr disk 0, []⟩ with
  | (_, .raised (.key _) _) => none
  | (l, _) => some l

/-- `test_common.py:799-817` `test_unknown_variable`. -/
example : unknownVar none = none ∧ unknownVar (some (lit c!"oop!")) = some [c!"oop!"] ∧
    unknownVar (some (choice [c!"bloop!"] 1 1)) = some [c!"bloop!"] := by decide +kernel

/-! ## `tests/samplers/test_prompts.py` -/

/-- `test_prompts.py:47-86`: no template, literals. -/
example : ∀ ww ∈ wraps, ∀ m ∈ methods, listOf m [] 5 [] ww = some [] ∧
    ∀ s ∈ [c!"A literal sentence", c!"Test [low emphasis]"],
      listOf m s 5 [] ww = some (List.replicate (if m = .comb then 1 else 5) s) := by decide +kernel

/-- `test_prompts.py:88-149` `test_variants`, `test_variant_with_blank`. -/
example :
    listOf .random c!"A red {square|circle}" 5 [0, 9, 0, 9, 0, 0, 0, 9, 0, 0] =
      some [c!"A red circle", c!"A red circle", c!"A red square", c!"A red circle", c!"A red square"] ∧
    listOf .cyc c!"A red {square|circle}" 5 =
      some [c!"A red square", c!"A red circle", c!"A red square", c!"A red circle", c!"A red square"] ∧
    listOf .comb c!"A red {square|circle}" 5 = some [c!"A red square", c!"A red circle"] ∧
    listOf .random c!"A {red|blue|} rose" 5 [0, 0, 0, 0, 0, 0, 0, 0, 0, 5] =
      some [c!"A red rose", c!"A red rose", c!"A red rose", c!"A red rose", c!"A blue rose"] ∧
    listOf .cyc c!"A {red|blue|} rose" 5 =
      some [c!"A red rose", c!"A blue rose", c!"A  rose", c!"A red rose", c!"A blue rose"] ∧
    listOf .comb c!"A {red|blue|} rose" 5 = some [c!"A red rose", c!"A blue rose", c!"A  rose"] := by decide +kernel

/-- `test_prompts.py:151-205` `test_two_variants`. -/
example :
    let t := c!"A {red|green} {square|circle}"
    listOf .random t 5 [0, 0, 0, 9, 0, 9, 0, 0, 0, 0, 0, 0, 0, 9, 0, 0, 0, 9, 0, 0] =
      some [c!"A red circle", c!"A green square", c!"A red square", c!"A green square", c!"A green square"] ∧
    listOf .cyc t 5 =
      some [c!"A red square", c!"A green circle", c!"A red square", c!"A green circle", c!"A red square"] ∧
    listOf .comb t 5 = some [c!"A red square", c!"A red circle", c!"A green square", c!"A green circle"] := by
  decide +kernel

/-- `test_prompts.py:207-269` `test_combination_variants`. -/
example :
    let t := c!"A {2$$red|green} {square|circle}"
    listOf .random t 5 [0, 0, 0, 0, 0, 0, 9, 0, 0, 9] = some [c!"A red,green square", c!"A green,red circle",
      c!"A red,green square", c!"A red,green square", c!"A red,green square"] ∧
    listOf .cyc t 5 = some [c!"A red,green square", c!"A green,red circle", c!"A red,green square",
      c!"A green,red circle", c!"A red,green square"] ∧
    listOf .comb t 5 = some [c!"A red,green square", c!"A red,green circle", c!"A green,red square",
      c!"A green,red circle"] := by decide +kernel

/-- `test_prompts.py:271-333` `test_combination_variants_range`. -/
example :
    let t := c!"A {1-2$$red|green|blue} square"
    listOf .random t 5 [1, 0, 0, 0, 0, 1, 0, 0, 1, 0, 0, 1, 0, 0] = some [c!"A red,green square", c!"A red square",
      c!"A red,green square", c!"A red,green square", c!"A red,green square"] ∧
    ∀ m ∈ [Method.cyc, .comb], listOf m t 5 = some [c!"A red square", c!"A green square", c!"A blue square",
      c!"A red,green square", c!"A red,blue square"] := by decide +kernel

/-- `test_prompts.py:335-382` `test_combination_variants_with_separator`. -/
example :
    let t := c!"A {2$$|$$red|green|blue} square"
    listOf .random t 2 [0, 0, 9, 0, 9, 9] = some [c!"A red|blue square", c!"A blue|green square"] ∧
    ∀ m ∈ [Method.cyc, .comb], listOf m t 6 = some ((cross c!"|" rgb rgb).map fun x => c!"A " ++ x ++ c!" square") := by
  decide +kernel

/-- `test_prompts.py:384-410` `test_weighted_variant`. -/
example : ∀ m ∈ [Method.cyc, .comb], listOf m c!"A {1::red|2::green|3::blue} square" 3 =
    some [c!"A red square", c!"A green square", c!"A blue square"] := by decide +kernel

/-- `test_prompts.py:412-455` `test_nested_variants`. -/
example :
    let t := c!"A {red|green {square|circle}}"
    listOf .random t 2 [0, 9, 0, 9, 0, 0] = some [c!"A green circle", c!"A red"] ∧
    listOf .cyc t 4 = some [c!"A red", c!"A green square", c!"A red", c!"A green circle"] ∧
    listOf .comb t 4 = some [c!"A red", c!"A green square", c!"A green circle"] := by decide +kernel

/-- `test_prompts.py:457-485` `test_wildcards`. -/
example :
    let f := fun m k draws => (samplePrompts (withValues rgb) 60 (ctxOf m) (.inl c!"A __colours__ square") k
      ⟨newMgr disk 0, draws⟩).1
    let e := [c!"A red square", c!"A green square", c!"A blue square"]
    f .random 2 [2, 0] = [c!"A blue square", c!"A red square"] ∧ f .cyc 6 [] = e ++ e ∧ f .comb 6 [] = e := by
  decide +kernel

/-- `test_prompts.py:487-508` `test_missing_wildcard`. -/
example : ∀ ww ∈ wraps, ∀ m ∈ [Method.random, .cyc],
    listOf m (c!"A " ++ ww ++ c!"missing" ++ ww ++ c!" wildcard") 5 [] ww =
      some (List.replicate 5 (c!"A " ++ ww ++ c!"missing" ++ ww ++ c!" wildcard")) := by decide +kernel

/-- `test_prompts.py:510-535` `test_nested_wildcard`. -/
example : ∀ ww ∈ wraps,
    listOf .random c!"{__colors*__}" 4 [0, 6, 0, 0, 0, 9, 0, 3] ww =
      some [c!"red", c!"blue", c!"yellow", c!"green"] ∧
    ∀ m ∈ [Method.cyc, .comb], listOf m c!"{__colors*__}" 4 [] ww = some colours := by decide +kernel

/-- `test_prompts.py:537-585` `test_nested_wildcard_with_range_and_literal`. -/
example : ∀ ww ∈ wraps,
    listOf .cyc c!"{2$$__colors*__|black}" 8 [] ww = some (colours.flatMap fun x => [x ++ c!",black", c!"black," ++ x]) ∧
    listOf .comb c!"{2$$__colors*__|black}" 8 [] ww =
      some (colours.map (· ++ c!",black") ++ colours.map (c!"black," ++ ·)) := by decide +kernel

/-- `test_prompts.py:587-605` `test_variants_with_larger_bounds_than_choices`. -/
example : ∀ m ∈ methods, ∀ draws ∈ [[], [9, 9, 9, 9, 9, 9, 9, 9, 9, 9, 9]],
    ((listOf m c!"A red {3$$square|circle}" 10 draws).any fun l =>
      l.all fun x => x ∈ [c!"A red square,circle", c!"A red circle,square"]) = true := by decide +kernel

/-- `test_prompts.py:607-` `test_nospace_before_or_after_wildcard`. -/
example : ∀ m ∈ methods, ((listOf m c!"(__colors*__:2.3) " 20).any fun l =>
    l.all fun x => !hasSub c!"( " x && !hasSub c!" :" x) = true := by decide +kernel

/-! ## `tests/samplers/test_mixed_methods.py` -/

/-- `test_mixed_methods.py:18-160`: choices with their own method in a combinatorial template. -/
example : ∀ p ∈ [
    (c!"A {@red|green} ball", 3, [], [c!"A red ball"]),
    (c!"A {~red|green} ball", 3, [0, 9, 0, 9], [c!"A green ball"]),
    (c!"A {red|green} {@ball|car}", 3, [], [c!"A red ball", c!"A green car"]),
    (c!"A {red|green} {~ball|car}", 3, [0, 9, 0, 9, 0, 9], [c!"A red car", c!"A green car"]),
    (c!"A {@red|green} {ball|car}", 3, [], [c!"A red ball", c!"A green car"]),
    (c!"A {~red|green} {ball|car}", 3, [0, 9, 0, 9, 0, 9], [c!"A green ball", c!"A green car"]),
    (c!"A {@red|green} {ball|car} {at night|in the morning}", 3, [],
      [c!"A red ball at night", c!"A green ball in the morning", c!"A red car at night"]),
    (c!"A {~red|green} {ball|car} {at night|in the morning}", 3, [0, 9, 0, 9, 0, 9, 0, 9],
      [c!"A green ball at night", c!"A green ball in the morning", c!"A green car at night"]),
    (c!"A {red|{@green|blue}} {@ball|car}", 10, [], [c!"A red ball", c!"A green car"]),
    (c!"A {red|{~green|blue}} {~ball|car}", 10, [0, 0, 0, 9, 0, 9, 0, 0], [c!"A red ball", c!"A blue car"]),
    (c!"A {red|blue|green|yellow|purple|black|white} {@ball|{!car|bike}}", 8, [],
      [c!"A red ball", c!"A blue car", c!"A green ball", c!"A yellow bike", c!"A purple ball", c!"A black car",
       c!"A white ball"]),
    (c!"test __@colors-cold__", 3, [], [c!"test blue"]),
    (c!"test __~colors-cold__", 3, [9, 9, 9], [c!"test green"]),
    (c!"{test1|test2} __@colors-cold__", 3, [], [c!"test1 blue", c!"test2 green"]),
    (c!"{test1|test2} __~colors-cold__", 3, [9, 9, 9], [c!"test1 green", c!"test2 green"])],
    listOf .comb p.1 p.2.1 p.2.2.1 = some p.2.2.2 := by decide +kernel

/-- `test_mixed_methods.py:164-230` `test_combinatorial_nested_in_non_finite`, the random case. -/
example : listOf .comb c!"A {red|blue|green|yellow|purple|black|white} {~ball|{!car|bike}}" 8
    [0, 0, 0, 9, 0, 0, 0, 0, 0, 9, 0, 9, 0, 0, 0, 9, 0, 0, 0, 0] =
    some [c!"A red ball", c!"A blue car", c!"A green ball", c!"A yellow bike", c!"A purple ball", c!"A black car",
      c!"A white ball"] := by decide +kernel

/-- `test_mixed_methods.py:262-311`: choices with their own method in random and cyclical templates. -/
example :
    listOf .random c!"A {@red|green} ball" 3 = some [c!"A red ball", c!"A green ball", c!"A red ball"] ∧
    listOf .random c!"A {!red|green} ball" 3 [0, 0, 0, 9, 0, 0] =
      some [c!"A red ball", c!"A green ball", c!"A red ball"] ∧
    listOf .cyc c!"A {!red|green} ball" 3 = some [c!"A red ball", c!"A green ball", c!"A red ball"] ∧
    listOf .cyc c!"A {~red|green} ball" 3 [0, 0, 0, 9, 0, 0] =
      some [c!"A red ball", c!"A green ball", c!"A red ball"] := by decide +kernel

end Verif.Conformance
