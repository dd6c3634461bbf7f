import Verif.Proofs.Seeds
import Verif.Spec.Demo
/-!
# C14, C40, C54 the random and combinatorial prompt generators: seeds and limits
-/

namespace Verif.Props
open Verif Spec
variable {W : Type}

/-! ## C40 the argument `seeds` -/

/-- **C40.**  A list of seeds that is neither a single one nor as long as the number of prompts is
refused with ValueError; nothing has happened to the world by then. -/
theorem wrong_number_of_seeds (E : Env W) (fuel : Nat) (reseed : Int → W → W) (template : Str)
    (num : Int) (seeds : List Int) (h0 : seeds ≠ []) (h1 : seeds.length ≠ 1)
    (hn : (seeds.length : Int) ≠ num) (w : W) :
    randomGenerate E fuel reseed template num (.list seeds) w = .err .value w := by
  unfold randomGenerate
  have ht : (Seeds.list seeds).truthy = true := by cases seeds <;> simp [Seeds.truthy] at h0 ⊢
  have he : (Seeds.list seeds).expand num = seeds := by
    match seeds, h1 with
    | [], _ => rfl
    | [_], h => exact absurd rfl h
    | _ :: _ :: _, _ => rfl
  rw [if_pos ht]
  simp only [he, if_pos hn]
  rfl

/-- **C40.**  One seed, as a number or as a list, is used for every prompt: it is as good as a list
with as many copies. -/
theorem one_seed_for_all (E : Env W) (fuel : Nat) (reseed : Int → W → W) (template : Str)
    (num : Int) (s : Int) (hn : 0 < num) :
    randomGenerate E fuel reseed template num (.list [s]) =
        randomGenerate E fuel reseed template num (.list (List.replicate num.toNat s)) ∧
      (s ≠ 0 → randomGenerate E fuel reseed template num (.int s) =
        randomGenerate E fuel reseed template num (.list [s])) := by
  have h1 : (Seeds.list (List.replicate num.toNat s)).expand num = List.replicate num.toNat s := by
    generalize hk : num.toNat = k
    match k with
    | 0 => omega
    | 1 => simp [Seeds.expand, hk]
    | k + 2 => simp [List.replicate_succ, Seeds.expand]
  have h2 : (Seeds.list (List.replicate num.toNat s)).truthy = true := by
    obtain ⟨k, hk⟩ : ∃ k, num.toNat = k + 1 := ⟨num.toNat - 1, by omega⟩
    simp [Seeds.truthy, hk, List.replicate_succ]
  refine ⟨?_, fun hs => ?_⟩
  · unfold randomGenerate
    rw [if_pos (by rfl), if_pos h2, h1]
    rfl
  · have ht : (Seeds.int s).truthy = true := by simp [Seeds.truthy, hs]
    unfold randomGenerate
    rw [if_pos ht]
    rfl

/-- **C40.**  With as many seeds as prompts, the random generator is re-seeded immediately before each
prompt, with the seed of that prompt; the call succeeds exactly if each `next` gives a prompt, and
then returns one prompt per seed. -/
theorem seeds_in_turn (E : Env W) (fuel : Nat) (reseed : Int → W → W) (template : Str)
    (seeds : List Int) (h0 : seeds ≠ []) (w w' : W) (ps : List Str) :
    (randomGenerate E fuel reseed template seeds.length (.list seeds) w = .ok ps w' ↔
      ∃ g, sampleGen E { method := .random, vars := [], being := [] } (.inl template) = .ok g ∧
        SeededRun E fuel reseed g w seeds ps w') ∧
    (randomGenerate E fuel reseed template seeds.length (.list seeds) w = .ok ps w' →
      ps.length = seeds.length) := by
  have ht : (Seeds.list seeds).truthy = true := by cases seeds <;> simp [Seeds.truthy] at h0 ⊢
  have he : (Seeds.list seeds).expand seeds.length = seeds := by
    match seeds with
    | [] => rfl
    | [_] => rfl
    | _ :: _ :: _ => rfl
  have key : randomGenerate E fuel reseed template seeds.length (.list seeds) w = .ok ps w' ↔
      ∃ g, sampleGen E { method := .random, vars := [], being := [] } (.inl template) = .ok g ∧
        SeededRun E fuel reseed g w seeds ps w' := by
    unfold randomGenerate
    rw [if_pos ht]
    simp only [he, if_neg (not_not.2 rfl)]
    rw [M.bind_ok]
    constructor
    · rintro ⟨g, w1, h1, h2⟩
      obtain ⟨h3, rfl⟩ := M.lift_ok_iff.1 h1
      exact ⟨g, h3, seedLoop_ok.1 h2⟩
    · rintro ⟨g, h1, h2⟩
      exact ⟨g, w, M.lift_ok_iff.2 ⟨h1, rfl⟩, seedLoop_ok.2 h2⟩
  refine ⟨key, fun h => ?_⟩
  obtain ⟨g, -, h⟩ := key.1 h
  exact SeededRun.length h

/-- **C40.**  `seeds=0` and `seeds=[]` are the same as no seeds: the random generator is not
re-seeded at all. -/
theorem false_seeds (E : Env W) (fuel : Nat) (reseed reseed' : Int → W → W) (template : Str)
    (num : Int) :
    randomGenerate E fuel reseed template num (.int 0) =
        randomGenerate E fuel reseed' template num .none ∧
      randomGenerate E fuel reseed template num (.list []) =
        randomGenerate E fuel reseed' template num .none :=
  ⟨rfl, rfl⟩

/-- An empty template gives no prompts without seeds, but StopIteration with seeds. -/
theorem empty_template (E : Env W) (fuel : Nat) (reseed : Int → W → W) (num : Int) (s : Int)
    (hn : 0 < num) (w : W) :
    randomGenerate E (fuel + 1) reseed [] num .none w = .ok [] w ∧
      randomGenerate E (fuel + 1) reseed [] num (.list [s]) w = .err .stop (reseed s w) := by
  refine ⟨rfl, ?_⟩
  obtain ⟨k, rfl⟩ : ∃ k : Nat, num = (k + 1 : Nat) := ⟨num.toNat - 1, by omega⟩
  have he : (Seeds.list [s]).expand (k + 1 : Nat) = s :: List.replicate k s := rfl
  have hl : ¬ (((s :: List.replicate k s).length : Int) ≠ (k + 1 : Nat)) := by simp
  unfold randomGenerate
  rw [if_pos (by rfl)]
  simp only [he, if_neg hl]
  rfl

/-! ## C54 generate returns what the sampling context produces -/

/-- **C54.**  Unseeded random generation and combinatorial generation return exactly the prompts that
the sampling context produces for the template, at most `num` of them, and raise what it raises. -/
theorem generate_unseeded (E : Env W) (fuel : Nat) (reseed : Int → W → W) (template : Str)
    (num : Nat) (ht : template ≠ []) (w w' : W) (ps : List Str) (e : Err) :
    (randomGenerate E fuel reseed template num .none w = .ok ps w' ↔
      Finished (samplePrompts E fuel ⟨.random, [], []⟩ (.inl template) num w) ps w') ∧
    (randomGenerate E fuel reseed template num .none w = .err e w' ↔
      (samplePrompts E fuel ⟨.random, [], []⟩ (.inl template) num w).2 = .raised e w') ∧
    (combGenerate E fuel template (some num) w = .ok ps w' ↔
      Finished (samplePrompts E fuel ⟨.comb, [], []⟩ (.inl template) num w) ps w') ∧
    (combGenerate E fuel template (some num) w = .err e w' ↔
      (samplePrompts E fuel ⟨.comb, [], []⟩ (.inl template) num w).2 = .raised e w') := by
  have hte : template.isEmpty = false := by cases template <;> simp at ht ⊢
  have key : ∀ m, (listPrompts E fuel (generatorCtx m) template (some (num : Int)) w = .ok ps w' ↔
      Finished (samplePrompts E fuel ⟨m, [], []⟩ (.inl template) num w) ps w') ∧
      (listPrompts E fuel (generatorCtx m) template (some (num : Int)) w = .err e w' ↔
      (samplePrompts E fuel ⟨m, [], []⟩ (.inl template) num w).2 = .raised e w') := by
    intro m
    unfold listPrompts samplePrompts generatorCtx
    rw [hte]
    have hnn : ¬ ((num : Int) < 0) := by omega
    simp only [Bool.false_eq_true, if_false, Int.toNat_natCast, if_neg hnn]
    cases sampleGen E ⟨m, [], []⟩ (.inl template) with
    | error e' =>
      constructor
      · simp [Finished, M.bind_eq, M.lift]
      · simp [M.bind_eq, M.lift]
    | ok g =>
      constructor
      · exact takeList_ok
      · exact takeList_err
  exact ⟨(key .random).1, (key .random).2, (key .comb).1, (key .comb).2⟩

/-- **C54.**  The dummy generator returns the template, as it is, `num` times; a negative number counts
as zero. -/
theorem dummy_generates (template : Str) (w : W) :
    (∀ num : Nat, ∃ ps, dummyGenerate template num w = .ok ps w ∧ ps.length = num ∧
      ∀ p ∈ ps, p = template) ∧
    ∀ num : Int, num < 0 → dummyGenerate template num w = .ok [] w := by
  refine ⟨fun num => ⟨List.replicate num template, by simp [dummyGenerate, M.pure_eq], by simp, ?_⟩, ?_⟩
  · intro p hp
    exact List.eq_of_mem_replicate hp
  · intro num hn
    have : num.toNat = 0 := by omega
    simp [dummyGenerate, this, M.pure_eq]

example : dummyGenerate (W := Nat) c!" {a|b} " 2 7 = .ok [c!" {a|b} ", c!" {a|b} "] 7 := by decide +kernel

/-- **C54.**  A negative number of prompts is refused with ValueError, unless the template is empty or
cannot be parsed. -/
theorem negative_count (E : Env W) (fuel : Nat) (reseed : Int → W → W) (template : Str)
    (num : Int) (hn : num < 0) (w : W) :
    (∀ g, sampleGen E ⟨.random, [], []⟩ (.inl template) = .ok g → template ≠ [] →
      randomGenerate E fuel reseed template num .none w = .err .value w) ∧
    (∀ g, sampleGen E ⟨.comb, [], []⟩ (.inl template) = .ok g → template ≠ [] →
      combGenerate E fuel template (some num) w = .err .value w) ∧
    (template = [] → randomGenerate E fuel reseed template num .none w = .ok [] w ∧
      combGenerate E fuel template (some num) w = .ok [] w) := by
  have key : ∀ m g, sampleGen E ⟨m, [], []⟩ (.inl template) = .ok g → template ≠ [] →
      listPrompts E fuel (generatorCtx m) template (some num) w = .err .value w := by
    intro m g hg ht
    have hte : template.isEmpty = false := by cases template <;> simp at ht ⊢
    unfold listPrompts generatorCtx
    rw [hte, hg]
    simp only [Bool.false_eq_true, if_false, if_pos hn]
    rfl
  refine ⟨key .random, key .comb, ?_⟩
  rintro rfl
  exact ⟨rfl, rfl⟩

/-! ## C14 seeds make prompts independent of history -/

/-- **C14.**  For a template that remembers nothing, each prompt of a seeded call is decided by its own
seed: it is the prompt that a new call with this seed alone returns, whatever happened in the world
before. -/
theorem seed_decides_prompt (E : Env W) (reseed : Int → W → W)
    (values : Str → Except Err (List Item)) (R : W → W → Prop) (H : SeededWorld E reseed values R)
    (template : Str) (c : Cmd) (hp : E.parse template = .ok c) (hc : Memoryless E values [] c)
    (fuel : Nat) (seeds : List Int) (w w' : W) (hw : R w w) (ps : List Str)
    (h : randomGenerate E fuel reseed template seeds.length (.list seeds) w = .ok ps w')
    (i : Nat) (s : Int) (hs : seeds[i]? = some s) (w0 : W) (hw0 : R w0 w0) :
    ∃ p w1 N, ps[i]? = some p ∧
      ∀ n ≥ N, randomGenerate E n reseed template 1 (.list [s]) w0 = .ok [p] w1 := by
  have hne : seeds ≠ [] := by rintro rfl; simp at hs
  obtain ⟨g, hg, hr⟩ := (seeds_in_turn E fuel reseed template seeds hne w w' ps).1.1 h
  have hsteady : Steady E R g := mkGen_vars_nil H hc rfl rfl (by rintro _ ⟨⟩; exact hp)
    (by rintro _ ⟨⟩) hg
  have hlen := SeededRun.length hr
  have hi : i < seeds.length := (List.getElem?_eq_some_iff.1 hs).1
  obtain ⟨p, hpi⟩ : ∃ p, ps[i]? = some p := ⟨ps[i]'(by omega), List.getElem?_eq_getElem (by omega)⟩
  have hz : (s, p) ∈ seeds.zip ps := by
    refine List.mem_of_getElem? (i := i) ?_
    rw [List.getElem?_zip_eq_some]
    exact ⟨hs, hpi⟩
  obtain ⟨w1, -, h1⟩ := seeded_each H hsteady hw hr w0 hw0 _ hz
  obtain ⟨g', h2⟩ := next_of_out h1
  obtain ⟨N, hN⟩ := nextG_iff.2 h2
  refine ⟨p, w1, N, hpi, fun n hn => ?_⟩
  exact (seeds_in_turn E n reseed template [s] (by simp) w0 w1 [p]).1.2
    ⟨g, hg, .cons (hN n hn) .nil⟩

/-- **C14.**  In particular, equal seeds give equal prompts, at any positions of any two calls of any
two generators. -/
theorem equal_seeds_equal_prompts (E : Env W) (reseed : Int → W → W)
    (values : Str → Except Err (List Item)) (R : W → W → Prop) (H : SeededWorld E reseed values R)
    (template : Str) (c : Cmd) (hp : E.parse template = .ok c) (hc : Memoryless E values [] c)
    (fuel fuel' : Nat) (seeds seeds' : List Int) (w1 w1' w2 w2' : W) (hw1 : R w1 w1) (hw2 : R w2 w2)
    (ps ps' : List Str)
    (h1 : randomGenerate E fuel reseed template seeds.length (.list seeds) w1 = .ok ps w1')
    (h2 : randomGenerate E fuel' reseed template seeds'.length (.list seeds') w2 = .ok ps' w2')
    (i j : Nat) (s : Int) (hs : seeds[i]? = some s) (hs' : seeds'[j]? = some s) :
    ps[i]? = ps'[j]? := by
  obtain ⟨p, x, N, hpi, hN⟩ := seed_decides_prompt E reseed values R H template c hp hc fuel
    seeds w1 w1' hw1 ps h1 i s hs w1 hw1
  obtain ⟨p', x', N', hpj, hN'⟩ := seed_decides_prompt E reseed values R H template c hp hc
    fuel' seeds' w2 w2' hw2 ps' h2 j s hs' w1 hw1
  have := (hN (max N N') (by omega)).symm.trans (hN' (max N N') (by omega))
  simp only [Res.ok.injEq, List.cons.injEq, and_true] at this
  rw [hpi, hpj, this.1]

/-- **C14.**  Conversely, if each seed alone gives a prompt, then the call with all the seeds gives
these prompts. -/
theorem seeds_give_all (E : Env W) (reseed : Int → W → W)
    (values : Str → Except Err (List Item)) (R : W → W → Prop) (H : SeededWorld E reseed values R)
    (template : Str) (c : Cmd) (hp : E.parse template = .ok c) (hc : Memoryless E values [] c)
    (seeds : List Int) (hne : seeds ≠ []) (f : Int → Str) (w w0 : W) (hw : R w w) (hw0 : R w0 w0)
    (h : ∀ s ∈ seeds, ∃ n w1, randomGenerate E n reseed template 1 (.list [s]) w0 = .ok [f s] w1) :
    ∃ w' N, ∀ n ≥ N,
      randomGenerate E n reseed template seeds.length (.list seeds) w = .ok (seeds.map f) w' := by
  obtain ⟨s0, hs0⟩ := List.exists_mem_of_ne_nil seeds hne
  have hone : ∀ s ∈ seeds, ∃ g w1, sampleGen E ⟨.random, [], []⟩ (.inl template) = .ok g ∧
      out E g (reseed s w0) = .ok (some (f s)) w1 := by
    intro s hs
    obtain ⟨n, w1, h1⟩ := h s hs
    obtain ⟨g, hg, hr⟩ := (seeds_in_turn E n reseed template [s] (by simp) w0 w1 [f s]).1.1 h1
    cases hr with
    | cons h2 h3 =>
      cases h3
      exact ⟨g, w1, hg, out_of_next (by rw [lim_of_fuel (n := n) (by rw [h2]; simp), h2])⟩
  obtain ⟨g, -, hg, -⟩ := hone s0 hs0
  have hsteady : Steady E R g := mkGen_vars_nil H hc rfl rfl (by rintro _ ⟨⟩; exact hp)
    (by rintro _ ⟨⟩) hg
  obtain ⟨w', N, hN⟩ := seeded_all H (l := seeds) hw0 hsteady hw fun s hs => by
    obtain ⟨g', w1, hg', h1⟩ := hone s hs
    rw [hg] at hg'
    cases hg'
    exact ⟨w1, h1⟩
  exact ⟨w', N, fun n hn => (seeds_in_turn E n reseed template seeds hne w w' _).1.2 ⟨g, hg, hN n hn⟩⟩

/-! ## Cases -/

namespace SeedDemo

/-- Setting the counter. -/
def reseed (s : Int) (_ : Nat) : Nat := s.toNat

/-- `{a|{@b|c}}${x={d|e}}${x}__colors__{2$$__colors__}`: one text, everything else as in `Demo.env`. -/
def template : Cmd := .seq [
  .variant [(.lit c!"a" none, 1), (Demo.oneOf [c!"b", c!"c"] (some .cyc), 1)] 1 1 c!"," none,
  .assign c!"x" (Demo.oneOf [c!"d", c!"e"]) false true,
  .access c!"x" none,
  .wild (.inl c!"colors") none [],
  .variant [(.wild (.inl c!"colors") none [], 1)] 2 2 c!"-" none] [] none

/-- `${x=!{a|b}}${x}` -/
def immediate : Cmd := .seq [.assign c!"x" (Demo.oneOf [c!"a", c!"b"]) true true, .access c!"x" none] [] none

/-- `__w__` with weights 1 and 2 -/
def weighted : Cmd := .wild (.inl c!"w") none []

/-- `__{colors|others}__`: a wildcard with a random name -/
def randomName : Cmd := .wild (.inr (Demo.oneOf [c!"colors", c!"others"])) none []

/-- `{@a|b}` -/
def cyclical : Cmd := Demo.oneOf [c!"a", c!"b"] (some .cyc)

/-- An environment that parses some texts to the templates above. -/
def env : Env Nat := { Demo.env with
  parse := fun s =>
    if s = c!"T" then .ok template
    else if s = c!"I" then .ok immediate
    else if s = c!"W" then .ok weighted
    else if s = c!"N" then .ok randomName
    else if s = c!"C" then .ok cyclical
    else .ok (.lit s none)
  getValues := fun s => pure (if s = c!"colors" then [⟨c!"red", none⟩, ⟨c!"blue", none⟩]
    else if s = c!"w" then [⟨c!"v1", some 1⟩, ⟨c!"v2", some 2⟩] else []) }

/-- The values of its wildcards. -/
def values (s : Str) : Except Err (List Item) :=
  .ok (if s = c!"colors" then [⟨c!"red", none⟩, ⟨c!"blue", none⟩]
    else if s = c!"w" then [⟨c!"v1", some 1⟩, ⟨c!"v2", some 2⟩] else [])

/-- The prompts, if the call succeeded. -/
def prompts : Res Nat (List Str) → List Str
  | .ok ps _ => ps
  | _ => []

end SeedDemo

open SeedDemo

/-- Non-vacuity: the world of the example is a proper seeded world. -/
example : SeededWorld SeedDemo.env SeedDemo.reseed SeedDemo.values Eq where
  symm := fun _ _ h => h.symm
  trans := fun _ _ _ h h' => h.trans h'
  draws := ⟨rfl, by rintro n w _ rfl; exact ⟨rfl, rfl⟩, by rintro w _ rfl; exact ⟨rfl, rfl⟩⟩
  answers := by rintro wc items w ⟨⟩ -; exact ⟨w, rfl, rfl⟩
  fails := by rintro wc e w ⟨⟩
  reseeds := fun _ _ _ _ _ => rfl

/-- Non-vacuity: the template of the example remembers nothing. -/
example : Memoryless SeedDemo.env SeedDemo.values [] template := by
  refine .seq (by simp) ?_ ?_
  · intro c hc
    simp only [List.mem_cons, List.not_mem_nil, or_false] at hc
    rcases hc with rfl | rfl | rfl | rfl | rfl <;> simp [Lazy, Demo.oneOf]
  · intro c hc hn
    simp only [List.mem_cons, List.not_mem_nil, or_false] at hc
    rcases hc with rfl | rfl | rfl | rfl | rfl
    · exact .choice (by simp) (by simp)
    · exact hn.elim
    · refine .access fun c hc => ?_
      cases hc with
      | var h _ =>
        have : c = Demo.oneOf [c!"d", c!"e"] := by
          have h2 : some (Demo.oneOf [c!"d", c!"e"]) = some c := h
          exact (Option.some.inj h2).symm
        subst this
        exact .choice (by simp) (by simp)
      | unknownEmpty _ _ h => cases h
      | unknown _ h => cases h
    · refine .wild (by simp) (PlainPath.text (t := c!"colors") (m := none) (by simp) rfl) ?_
      rintro items ⟨⟩
      decide +kernel
    · refine .choiceOfValues (by simp) (PlainPath.text (t := c!"colors") (m := none) (by simp) rfl) ?_
      rintro items ⟨⟩
      decide +kernel

/-- The prompts of the example: equal seeds, equal prompts. -/
example : prompts (randomGenerate SeedDemo.env 60 SeedDemo.reseed c!"T" 4 (.list [3, 8, 3, 5]) 0) =
    prompts (randomGenerate SeedDemo.env 60 SeedDemo.reseed c!"T" 1 (.list [3]) 7) ++
    prompts (randomGenerate SeedDemo.env 60 SeedDemo.reseed c!"T" 1 (.list [8]) 7) ++
    prompts (randomGenerate SeedDemo.env 60 SeedDemo.reseed c!"T" 1 (.list [3]) 7) ++
    prompts (randomGenerate SeedDemo.env 60 SeedDemo.reseed c!"T" 1 (.list [5]) 7) ∧
    (prompts (randomGenerate SeedDemo.env 60 SeedDemo.reseed c!"T" 4 (.list [3, 8, 3, 5]) 0)).length = 4 := by
  decide +kernel

/-- **C14 fails in general.**  The seed of a prompt does not decide it if the template keeps something
between prompts: an immediately evaluated variable, a wildcard with varying weights (drawn ten at a
time), a wildcard whose name is itself random, a cyclical part. -/
theorem seed_does_not_decide :
    ∀ t ∈ [c!"I", c!"W", c!"N", c!"C"], ∃ s1 s2 p1 p2 p2',
      prompts (randomGenerate SeedDemo.env 60 SeedDemo.reseed t 2 (.list [s1, s2]) 0) = [p1, p2] ∧
      prompts (randomGenerate SeedDemo.env 60 SeedDemo.reseed t 1 (.list [s2]) 0) = [p2'] ∧
      p2 ≠ p2' := by
  intro t ht
  simp only [List.mem_cons, List.not_mem_nil, or_false] at ht
  rcases ht with rfl | rfl | rfl | rfl
  · exact ⟨1, 2, c!"a", c!"a", c!"b", by decide +kernel, by decide +kernel, by decide +kernel⟩
  · exact ⟨1, 3, c!"v2", c!"v1", c!"v2", by decide +kernel, by decide +kernel, by decide +kernel⟩
  · exact ⟨1, 2, c!"blue", c!"red", c!"__others__", by decide +kernel, by decide +kernel, by decide +kernel⟩
  · exact ⟨1, 1, c!"a", c!"b", c!"a", by decide +kernel, by decide +kernel, by decide +kernel⟩

end Verif.Props
