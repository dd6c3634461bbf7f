import Verif.Model.System
import Verif.Model.Values
import Verif.Spec.Links
import Verif.Spec.Bytes
import Mathlib.Data.List.Nodup
/-!
# The repository's own wildcard tests, evaluated on the model

Tests of the model, not proofs about it.  The directory is `/repo/tests/test_data/wildcards`; its structured files
contain, in place of their text, their name, by which the library below finds the document that the YAML or JSON
library reads from them.  A file system with symbolic
links is replaced by the one without links that it shows (C90).
-/

namespace Verif.Conformance
open Verif Verif.Spec

/-- A list of strings in a document. -/
def strs (l : List Str) : J := .list (l.map .str)

/-- A dictionary with string keys in a document. -/
def obj (d : List (Str × J)) : J := .dict (d.map fun q => (some q.1, q.2))

/-- `animal`: a long prompt with a variable. -/
def plushToy : Str :=
  c!"Cute kawaii Squishy ${animal} plush toy, realistic texture, visible stitch line, soft smooth lighting, " ++
  c!"vibrant studio lighting, modular constructivism, physically based rendering, square image"

/-- A prompt with assignments, and wildcards whose names contain variables. -/
def beverage : Str :=
  c!"${season?=!{winter|summer}} ${temp?=!{hot|cold}} ${location?=!{north|south}} a __drink/container/${temp}__ of " ++
  c!"__drink/temp/${temp}__ __drink/${season}/${location}__"

/-- The documents of the YAML files. -/
def yamlDocs : List (Str × J) := [
  (c!"lizards.yaml", strs [c!"iguana", c!"gecko"]),
  (c!"cars.yaml", obj [(c!"cars", obj [
    (c!"ford", obj [(c!"name", strs [c!"Ford"]), (c!"types", strs [c!"muscle car", c!"compact car", c!"roadster"]),
      (c!"colors", strs [c!"white", c!"black", c!"brown", c!"red"])]),
    (c!"porsche", obj [(c!"name", strs [c!"Porsche"]), (c!"types", strs [c!"sports car"]),
      (c!"colors", strs [c!"red", c!"black"])]),
    (c!"john_deere", obj [(c!"name", strs [c!"John Deere"]), (c!"types", strs [c!"tractor"]),
      (c!"colors", strs [c!"green", c!"yellow"])])])]),
  (c!"drink.yaml", obj [(c!"drink", obj [
    (c!"beverage", strs [beverage]),
    (c!"winter", obj [
      (c!"beverage", strs [c!"${temp=hot} ${season=winter} ${location?=north} __drink/beverage__"]),
      (c!"north", strs [c!"tea"]), (c!"south", strs [c!"coffee"])]),
    (c!"summer", obj [
      (c!"beverage", strs [c!"${temp=cold} ${season=summer} ${location?=south} __drink/beverage__"]),
      (c!"north", strs [c!"tea", c!"pop"]), (c!"south", strs [c!"sweet tea", c!"soda"])]),
    (c!"container", obj [(c!"hot", strs [c!"mug"]), (c!"cold", strs [c!"glass"])]),
    (c!"temp", obj [(c!"hot", strs [c!"hot"]), (c!"cold", strs [c!"iced"])])])]),
  (c!"invalid.yaml", .str c!"hello"),
  (c!"pantry.yaml", obj [
    (c!"clothing", strs [c!"T-shirt", c!"Pants", c!"Shoes"]),
    (c!"artists", .dict [
      (some c!"finnish", strs [c!"Akseli Gallen-Kallela", c!"Eero Järnefelt", c!"Helene Schjerfbeck"]),
      (some c!"dutch", strs [c!"Piet Mondrian", c!"Rembrandt van Rijn", c!"Vincent van Gogh"]),
      (some c!"moonbase", .str c!"john madden"), (none, .num 5678), (some c!"flurp", .num 12345),
      (some c!"flem", .str [])])]),
  (c!"plush-toy.yaml", strs [plushToy]),
  (c!"shapes.yaml", strs [c!"circle", c!"square", c!"triangle"]),
  (c!"weighted.yaml", obj [(c!"weighted-animals", obj [
    (c!"heavy", strs [c!"50::elephant", c!"20.5::rhino", c!"10::hippo", c!"5::giraffe"]),
    (c!"light", .list [obj [(c!"weight", .num 1), (c!"text", .str c!"mouse")],
      obj [(c!"weight", .num 2), (c!"text", .str c!"rabbit")],
      obj [(c!"weight", .num 3), (c!"content", .str c!"cat")]])])])]

/-- Find a document. -/
def docOf (l : List (Str × J)) (s : Str) : Option J :=
  match l with
  | [] => none
  | (k, v) :: l => if k = s then some v else docOf l s

/-- The library: ASCII digits, the numbers of the tests, the documents above. -/
def lib : Lib where
  isDigit c := '0' ≤ c && c ≤ '9'
  float s := docFloat s
  strOf _ := []
  json s := docOf [(c!"pantry.json", obj [(c!"bitter", strs [c!"coffee", c!"dark chocolate"])])] s
  yaml s := docOf yamlDocs s
where
  docFloat (s : Str) : Option Rat :=
    if s = c!"50" then some 50 else if s = c!"20.5" then some (41 / 2) else if s = c!"10" then some 10
    else if s = c!"5" then some 5 else none

/-- The directory `test_data/wildcards`. -/
def files : FNode :=
  .dir [
    (c!"animal.txt", .file c!"__animals/${genus:*}/*__\n"),
    (c!"animals", .dir [
      (c!"all-references.txt", 
        .file (c!"# These refer to files within this directory.\n\n" ++ c!"__mammals/canine__\n__mammals/feline__\n__mystical__\n")),
      (c!"mammals", .dir [
        (c!"canine.txt", .file c!"dog\nwolf\n"),
        (c!"feline.txt", .file c!"cat\ntiger\n")]),
      (c!"mystical.txt", .file c!"unicorn\n"),
      (c!"reptiles", .dir [
        (c!"lizards.yaml", .file c!"lizards.yaml"),
        (c!"snakes.txt", .file c!"python\ncobra\n")])]),
    (c!"cars.yaml", .file c!"cars.yaml"),
    (c!"colors-cold.txt", .file c!"# comment\nblue\ngreen\n"),
    (c!"colors-warm.txt", .file c!"# comment\nred\nyellow\n"),
    (c!"drink.yaml", .file c!"drink.yaml"),
    (c!"dupes.txt", .file c!"red\nblue\nblue\ngreen\nred\n"),
    (c!"flavors", .dir [
      (c!"pantry.json", .file c!"pantry.json"),
      (c!"sour.txt", .file c!"grapefruit\nlemon\n"),
      (c!"sweet.txt", .file c!"# comment\nvanilla\nchocolate\nstrawberry\n")]),
    (c!"invalid.yaml", .file c!"invalid.yaml"),
    (c!"pantry.yaml", .file c!"pantry.yaml"),
    (c!"publicprompts", .dir [
      (c!"plush-toy.yaml", .file c!"plush-toy.yaml")]),
    (c!"referencing-colors.txt", .file c!"__colors-warm__\n__colors-cold__\n"),
    (c!"shapes.yaml", .file c!"shapes.yaml"),
    (c!"variant.txt", .file c!"{red|green}\n"),
    (c!"weighted.yaml", .file c!"weighted.yaml"),
    (c!"wrappers.txt", 
      .file (c!"Art Deco, ..., sleek, geometric forms, art deco style\n" ++
        c!"Pop Art, ....., vivid colors, flat color, 2D, strong lines, Pop Art\n"))]

/-- All files: the directory is `/wildcards`. -/
def disk : FNode := .dir [(c!"wildcards", files), (c!"cant_touch_this.txt", .file c!"no\n")]

/-- A random generator: always the first. -/
def firstRng : Rng Nat where
  arith := .exact
  below _ w := (0, w + 1)
  unit w := (⟨0, by decide⟩, w + 1)

/-- `conftest.py:12-14`: the manager of the tests with a given wrap string. -/
def wcfg (wrap : Str) : MgrCfg Nat := ⟨lib, wrap, [([], [.path [c!"wildcards"]])], firstRng⟩

/-- The wrap strings of the tests. -/
def wraps : List Str := [c!"__", c!"++", c!"::"]

/-- The value of an operation of a new manager; nothing if it raises. -/
def val {α : Type} (op : M (Mgr Nat) α) (s : Mgr Nat := newMgr disk 0) : Option α :=
  match op s with
  | .ok a _ => some a
  | _ => none

/-- `get_values(w).string_values`. -/
def stringsOf (c : MgrCfg Nat) (w : Str) (s : Mgr Nat := newMgr disk 0) : Option (List Str) :=
  (val (Mgr.getValues c w) s).map stringValues

/-- The same elements. -/
def sameSet (a b : List Str) : Bool := (a.all fun x => x ∈ b) && (b.all fun x => x ∈ a)

/-- `test_wildcardmanager.py:22-26` `test_pathless_wm`. -/
example : managerRoots none none = .ok [] := rfl

example :
    let c : MgrCfg Nat := ⟨lib, c!"__", [], firstRng⟩
    stringsOf c c!"test" = some [] ∧ (val (Mgr.matchCollections c c!"test")).map List.length = some 0 := by
  decide +kernel

/-- `test_wildcardmanager.py:33-36` `test_is_wildcard`. -/
example : ∀ ww ∈ wraps, isWildcard ww (ww ++ c!"test" ++ ww) = true ∧ isWildcard ww c!"test" = false := by
  decide +kernel

/-- `test_wildcardmanager.py:39-54` `test_get_all_values`. -/
example : ∀ ww ∈ wraps,
    stringsOf (wcfg ww) c!"color*" = some [c!"blue", c!"green", c!"red", c!"yellow"] ∧
    stringsOf (wcfg ww) c!"flavors/*" = some [c!"chocolate", c!"coffee", c!"dark chocolate", c!"grapefruit", c!"lemon",
      c!"strawberry", c!"vanilla"] := by decide +kernel

/-- `test_wildcardmanager.py:57-77` `test_get_all_values_sorted_and_deduplicated`. -/
example : ∀ p ∈ [
    (true, true, [c!"blue", c!"green", c!"red", c!"yellow"]),
    (false, true, [c!"red", c!"green", c!"blue", c!"yellow"]),
    (true, false, [c!"blue", c!"green", c!"red", c!"red", c!"yellow"]),
    (false, false, [c!"red", c!"green", c!"red", c!"blue", c!"yellow"])],
    stringsOf ⟨lib, c!"__", [([], [.dict [(c!"colors",
      [c!"red", c!"green", c!"red", c!"blue", c!"yellow"].map (⟨·, none⟩))]])], firstRng⟩ c!"colors*"
      ((newMgr disk 0).setSort p.1 |>.setDedup p.2.1) = some p.2.2 := by decide +kernel

/-- `test_wildcardmanager.py:80-99` `test_get_all_values_shuffled`, with fewer values: without shuffling the values as
they are, with shuffling in another order, also when they were looked up before. -/
example :
    let ws := [c!"q", c!"w", c!"e", c!"r", c!"t", c!"y"]
    let c : MgrCfg Nat := ⟨lib, c!"__", [([], [.dict [(c!"test_wildcards", ws.map (⟨·, none⟩))]])], firstRng⟩
    let s := (newMgr disk 0).setSort false |>.setDedup false
    stringsOf c c!"test_wildcards" s = some ws ∧ stringsOf c c!"test_wildcards" (s.setShuffle false) = some ws ∧
    (match Mgr.getValues c c!"test_wildcards" s with
     | .ok _ s => (stringsOf c c!"test_wildcards" (s.setShuffle true)).any fun l => sameSet l ws && l != ws
     | _ => false) = true := by decide +kernel

/-- `test_wildcardmanager.py:102-115` `test_pantry_expansion`. -/
example : ∀ ww ∈ wraps,
    stringsOf (wcfg ww) c!"flavors/bitter" = some [c!"coffee", c!"dark chocolate"] ∧
    stringsOf (wcfg ww) c!"clothing" = some [c!"Pants", c!"Shoes", c!"T-shirt"] ∧
    ((stringsOf (wcfg ww) c!"artists/finnish").any fun l => c!"Akseli Gallen-Kallela" ∈ l) = true := by decide +kernel

/-- `test_wildcardmanager.py:118-123` `test_match_files_with_missing_wildcard`,
`test_get_all_values_with_missing_wildcard`. -/
example : ∀ ww ∈ wraps, (val (Mgr.matchCollections (wcfg ww) c!"__invalid_wildcard__")).map List.length = some 0 ∧
    stringsOf (wcfg ww) c!"__invalid_wildcard__" = some [] := by decide +kernel

/-- The names at a node of the tree, and those below it. -/
def TreeNode.at {α : Type} : TreeNode α → List Str → Option (List Str × List Str)
  | t@(.mk _ _ colls), [] => some (colls.map (·.1), t.walkNames)
  | .mk _ children _, n :: ns => go children n ns
where
  go : List (Str × TreeNode α) → Str → List Str → Option (List Str × List Str)
    | [], _, _ => none
    | (m, c) :: cs, n, ns => if m = n then TreeNode.at c ns else go cs n ns

/-- The names of all collections of the directory. -/
def hierarchy : List Str := [
    c!"dupes", c!"animal", c!"animals/all-references", c!"animals/mammals/canine", c!"animals/mammals/feline",
    c!"animals/mystical", c!"animals/reptiles/lizards", c!"animals/reptiles/snakes", c!"artists/dutch",
    c!"artists/finnish", c!"artists/moonbase", c!"cars/ford/colors", c!"cars/ford/name", c!"cars/ford/types",
    c!"cars/john_deere/colors", c!"cars/john_deere/name", c!"cars/john_deere/types", c!"cars/porsche/colors",
    c!"cars/porsche/name", c!"cars/porsche/types", c!"clothing", c!"colors-cold", c!"colors-warm",
    c!"drink/beverage", c!"drink/container/cold", c!"drink/container/hot", c!"drink/summer/beverage",
    c!"drink/summer/north", c!"drink/summer/south", c!"drink/winter/beverage", c!"drink/winter/north",
    c!"drink/winter/south", c!"drink/temp/cold", c!"drink/temp/hot", c!"flavors/bitter", c!"flavors/sour",
    c!"flavors/sweet", c!"publicprompts/plush-toy", c!"referencing-colors", c!"shapes", c!"variant",
    c!"weighted-animals/heavy", c!"weighted-animals/light", c!"wrappers"]

/-- `test_wildcardmanager.py:126-227` `test_hierarchy`. -/
example : ∀ ww ∈ wraps, ((val (Mgr.getTree (wcfg ww))).any fun t =>
    sameSet (t.root.walk.map (·.1)) hierarchy) = true := by decide +kernel

/-- `test_wildcardmanager.py:174-227`, the rest of `test_hierarchy`. -/
example : ∀ p ∈ [
    ([], [c!"animal", c!"clothing", c!"colors-cold", c!"colors-warm", c!"dupes", c!"referencing-colors", c!"shapes",
      c!"variant", c!"wrappers"]),
    ([c!"animals"], [c!"all-references", c!"mystical"]), ([c!"animals", c!"mammals"], [c!"canine", c!"feline"]),
    ([c!"animals", c!"reptiles"], [c!"lizards", c!"snakes"]), ([c!"flavors"], [c!"sour", c!"sweet", c!"bitter"]),
    ([c!"artists"], [c!"dutch", c!"finnish", c!"moonbase"])],
    ((val (Mgr.getTree (wcfg c!"__"))).any fun t => (TreeNode.at t.root p.1).any fun r => sameSet r.1 p.2) = true := by
  decide +kernel

example : ((val (Mgr.getTree (wcfg c!"__"))).any fun t => (TreeNode.at t.root [c!"animals"]).any fun r =>
    sameSet r.2 [c!"animals/all-references", c!"animals/mammals/canine", c!"animals/mammals/feline",
      c!"animals/mystical", c!"animals/reptiles/lizards", c!"animals/reptiles/snakes"]) = true := by decide +kernel

/-- `test_wildcardmanager.py:230-239` `test_backslash_norm`. -/
example : ∀ ww ∈ wraps, ((stringsOf (wcfg ww) c!"flavors\\*").any fun l => sameSet l [c!"chocolate", c!"coffee",
    c!"dark chocolate", c!"grapefruit", c!"lemon", c!"strawberry", c!"vanilla"]) = true := by decide +kernel

/-- `test_wildcardmanager.py:242-244` `test_directory_traversal`. -/
example : ∀ ww ∈ wraps, stringsOf (wcfg ww) c!"../cant_touch_this" = some [] ∧
    stringsOf (wcfg ww) c!"..\\cant_touch_this" = some [] := by decide +kernel

/-- `test_wildcardmanager.py:247-251` `test_clean_wildcard_invalid`. -/
example : ∀ ww ∈ wraps, cleanWildcard ww c!"foo/../bar" = none := by decide +kernel

/-- `test_wildcardmanager.py:254-265` `test_clean_wildcard`. -/
example : ∀ ww ∈ wraps, ∀ p ∈ [(c!"foo", c!"foo"), (c!"foo/bar", c!"foo/bar"),
    (c!"foo\\\\\\\\\\\\\\bar//", c!"foo/bar")],
    cleanWildcard ww p.1 = some p.2 ∧ cleanWildcard ww (ww ++ p.1 ++ ww) = some p.2 := by decide +kernel

/-- `test_wildcardmanager.py:268-271` `test_to_wildcard`. -/
example : ∀ ww ∈ wraps, toWildcard ww c!"foo" = ww ++ c!"foo" ++ ww ∧
    toWildcard ww (ww ++ c!"foo" ++ ww) = ww ++ c!"foo" ++ ww := by decide +kernel

/-- The files and links of `test_wildcard_symlinks`; `more` is what is written outside later. -/
def linkDisk (more : List (Str × LNode Bytes)) : LNode Bytes :=
  .dir [(c!"tmp", .dir [
    (c!"outside", .dir ((c!"wilderness.txt", .file (encodeUtf8 c!"plants\nforest\nflowers\nsunshine")) :: more)),
    (c!"wildcards", .dir ([
      (c!"animals", .dir [(c!"internet.txt", .file (encodeUtf8 c!"doggo\ncatto\notto")),
        (c!"cool.txt", .file (encodeUtf8 c!"cool bear\ncool penguin"))]),
      (c!"friendos.txt", .link true [c!"tmp", c!"wildcards", c!"animals", c!"internet.txt"]),
      (c!"wow_polar.txt", .link false [c!"animals", c!"cool.txt"]),
      (c!"wild.txt", .link true [c!"tmp", c!"outside", c!"wilderness.txt"])] ++
      if more.isEmpty then [] else [(c!"wildly", .link true [c!"tmp", c!"outside"])]))])]

/-- `test_wildcardmanager.py:257-318` `test_wildcard_symlinks`. -/
example :
    let c : MgrCfg Nat := ⟨lib, c!"__", [([], [.path [c!"tmp", c!"wildcards"]])], firstRng⟩
    let s : Mgr Nat := newMgr (texts <| withoutLinks (linkDisk [])) 0
    let s' : Mgr Nat := newMgr (texts <| withoutLinks (linkDisk [(c!"wilder.txt", .file (encodeUtf8 c!"whoa!!!"))])) 0
    ((val (Mgr.getTree c) s).any fun t => sameSet (t.root.walk.map (·.1))
      [c!"animals/cool", c!"animals/internet", c!"friendos", c!"wild", c!"wow_polar"]) = true ∧
    (∀ w ∈ [c!"animals/internet", c!"friendos"],
      ((stringsOf c w s).any fun l => sameSet l [c!"doggo", c!"catto", c!"otto"]) = true) ∧
    ((stringsOf c c!"wild" s).any fun l => sameSet l [c!"plants", c!"forest", c!"flowers", c!"sunshine"]) = true ∧
    stringsOf c c!"../outside/wilderness" s = some [] ∧
    ((stringsOf c c!"wildly/*" s').any fun l =>
      sameSet l [c!"plants", c!"forest", c!"flowers", c!"sunshine", c!"whoa!!!"]) = true := by
  decide +kernel

/-- Read a text file object twice, write back what its file contains, read again. -/
def readWriteRead : M (Mgr Nat) (List Str × List Str × List Str) := do
  match ← Mgr.getFile (wcfg c!"__") c!"colors-cold" with
  | .list _ => M.raise .value
  | .text id =>
    let a ← Mgr.textGetValues id
    let b ← Mgr.textGetValues id
    let text : Option Str ← fun s => .ok ((s.heap[id]?).bind fun o => s.fs.read o.path) s
    match text with
    | none => M.raise .value
    | some t =>
      Mgr.textWrite id t
      let c ← Mgr.textGetValues id
      return (a, b, c)

/-- `test_wildcardmanager.py:323-330` `test_read_write_is_idempotent`. -/
example : val readWriteRead =
    some ([c!"blue", c!"green"], [c!"blue", c!"green"], [c!"blue", c!"green"]) := by decide +kernel

/-- `test_wildcardmanager.py:338-363`: a manager that combines several trees. -/
def rootsCfg : MgrCfg Nat := ⟨lib, c!"__", [
  (c!"elaimet", [.path [c!"wildcards", c!"animals"], .dict [(c!"jannat", [⟨c!"okapi", none⟩])]]),
  (c!"metasyntactic", [.dict [(c!"foo", [⟨c!"bar", none⟩, ⟨c!"baz", none⟩]),
    (c!"fnord", [⟨c!"spam", none⟩, ⟨c!"eggs", none⟩])]]),
  ([], [.dict [(c!"finnish-words", [⟨c!"kolmivaihevaihtovirtakilowattituntimittari", none⟩,
    ⟨c!"törkylempijävongahdus", none⟩]), (c!"elaimet/sopot", [⟨c!"pingviini", none⟩])]])], firstRng⟩

/-- `test_wildcardmanager.py:333-396` `test_wcm_roots`. -/
example : ((val (Mgr.collectionNames rootsCfg)).any fun l => sameSet l [c!"finnish-words", c!"elaimet/jannat",
      c!"elaimet/all-references", c!"elaimet/mammals/canine", c!"elaimet/mammals/feline", c!"elaimet/mystical",
      c!"elaimet/reptiles/lizards", c!"elaimet/reptiles/snakes", c!"elaimet/sopot", c!"metasyntactic/fnord",
      c!"metasyntactic/foo"]) = true ∧
    ((stringsOf rootsCfg c!"elaimet/*").any fun l => sameSet (l.filter fun v => !startsWith v c!"_") [c!"cat",
      c!"cobra", c!"dog", c!"gecko", c!"iguana", c!"okapi", c!"pingviini", c!"python", c!"tiger", c!"unicorn",
      c!"wolf"]) = true ∧
    ((stringsOf rootsCfg c!"metasy*").any fun l => sameSet l [c!"eggs", c!"spam", c!"baz", c!"bar"]) = true := by
  decide +kernel

/-- `test_wildcardmanager.py:393-403` `test_weight_parsing`. -/
example : ∀ ww ∈ wraps, ((val (Mgr.getValues (wcfg ww) c!"weighted-animals/*")).any fun l =>
    (⟨c!"cat", some 3⟩ : Item) ∈ l && (⟨c!"elephant", some 50⟩ : Item) ∈ l &&
      (⟨c!"rhino", some (41 / 2)⟩ : Item) ∈ l) = true := by decide +kernel

/-- `test_wildcardmanager.py:406-409` `test_single_string_in_structured_parsed_as_list`. -/
example : ∀ ww ∈ wraps, stringsOf (wcfg ww) c!"artists/moonbase" = some [c!"john madden"] := by decide +kernel

/-- `tests/wildcard/test_tree.py:5-13` `test_synthetic_tree`. -/
example : sameSet (TreeNode.walk (.mk [] [(c!"jane", .mk c!"jane" [] [(c!"doe", ())])]
    [(c!"mike", ()), (c!"joe", ())]) |>.map (·.1)) [c!"mike", c!"joe", c!"jane/doe"] = true := by decide +kernel

/-- `tests/wildcard/test_utils.py:4-6` `test_structured_parsing_emits_no_warnings`. -/
example : parseList lib [.str c!"a", .str c!"b", .str c!"c"] =
    some [⟨c!"a", none⟩, ⟨c!"b", none⟩, ⟨c!"c", none⟩] := by decide +kernel

/-- `tests/test_sd_issues.py:130-137` `test_sd_665`. -/
example : parseList lib [.str c!"{3::|looking up view|looking down view|birds-eye view}"] =
    some [⟨c!"{3::|looking up view|looking down view|birds-eye view}", none⟩] := by decide +kernel

/-- `tests/wildcard/collection/test_text_file.py:14-16` `test_get_values`. -/
example : textValues c!"red\nblue\nblue\ngreen\nred\n" = [c!"red", c!"blue", c!"blue", c!"green", c!"red"] := by
  decide +kernel

/-- `tests/test_utils.py`. -/
example : dedupe id [c!"a", c!"b", c!"a", c!"c", c!"b", c!"d"] = [c!"a", c!"b", c!"c", c!"d"] ∧
    removeprefix c!"foobar" c!"foo" = c!"bar" ∧ removeprefix c!"foobar" c!"bar" = c!"foobar" ∧
    removesuffix c!"foobar" c!"bar" = c!"foo" ∧ removesuffix c!"foobar" c!"foo" = c!"foobar" := by decide +kernel

end Verif.Conformance
