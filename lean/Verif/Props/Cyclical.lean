import Verif.Proofs.Cycle
import Verif.Proofs.Selections
import Verif.Proofs.Text
import Verif.Spec.Demo
/-!
# C11 closed form of cyclical sampling, C12 synchronisation
-/

namespace Verif.Props
open Verif Spec
variable {W : Type}

/-- **C11.**  The `i`-th prompt of a cyclically sampled template is the closed form `f i` of
`Spec.CyclesPrompt`; `k` prompts are the first `k` values, and the generator could go on.  The state
of the random source plays no role. -/
theorem cyclical_closed_form (E : Env W) (vars : List (Str × Cmd)) (being : List Str) (p : Prompt)
    (f : Nat → Str) (h : CyclesPrompt E vars being p f) (k : Nat) (w : W) :
    ∃ N, ∀ fuel ≥ N, (samplePrompts E fuel ⟨.cyc, vars, being⟩ p k w).1 = (List.range k).map f ∧
      ∃ g w', (samplePrompts E fuel ⟨.cyc, vars, being⟩ p k w).2 = .limit g w' := by
  obtain ⟨g, hg, st, rfl, hs⟩ := cyclesPrompt_streams h
  simp only [samplePrompts, hg]
  refine (hs.collect 0 k w).mp fun n hn => ⟨by simpa using hn.1, ?_⟩
  obtain ⟨w', h2⟩ := hn.2
  exact ⟨_, w', h2⟩

/-- The closed form is a function of the template: at most one stream per prompt can be observed. -/
theorem cyclical_unique (E : Env W) (vars : List (Str × Cmd)) (being : List Str) (p : Prompt)
    (f f' : Nat → Str) (h : CyclesPrompt E vars being p f) (h' : CyclesPrompt E vars being p f') (w : W) :
    f = f' := by
  funext i
  obtain ⟨N, h1⟩ := cyclical_closed_form E vars being p f h (i + 1) w
  obtain ⟨N', h2⟩ := cyclical_closed_form E vars being p f' h' (i + 1) w
  have e := (h1 (max N N') (by omega)).1.symm.trans (h2 (max N N') (by omega)).1
  have := congrArg (fun l => l[i]?) e
  simpa using this

theorem selections_one {α : Type} [DecidableEq α] (l : List α) : selections 1 l = l.map fun a => [a] := by
  simp only [selections, List.replicate_one, product, List.map_cons, List.map_nil]
  rw [List.filter_eq_self.2]
  · induction l with
    | nil => rfl
    | cons a l ih => simp_all
  · intro t ht
    obtain ⟨a, _, h⟩ := List.mem_flatMap.1 ht
    simp only [List.mem_singleton] at h
    subst h; simp

theorem variantSelections_one (opts : List (Cmd × Rat)) (h : opts ≠ []) :
    variantSelections opts 1 1 = opts.map fun p => [p.1] := by
  have : sizes opts.length 1 1 = [1] := by
    have hp := List.length_pos_iff.2 h
    obtain ⟨n, hn⟩ : ∃ n, opts.length = n + 1 := ⟨opts.length - 1, by omega⟩
    rw [hn]
    simp only [sizes]
    rw [List.range_succ_eq_map, List.range_succ_eq_map]
    simp only [List.map_cons, List.map_map, List.filter_cons]
    rw [if_neg (by simp), if_pos (by simp)]
    congr 1
    rw [List.filter_eq_nil_iff]
    intro k hk
    obtain ⟨j, _, rfl⟩ := List.mem_map.1 hk
    simp only [Function.comp_apply, decide_eq_true_eq]
    omega
  simp [variantSelections, this, selections_one]

/-- Options that are all literals (with their weights). -/
def literals (l : List (Str × Rat)) : List (Cmd × Rat) := l.map fun p => (.lit p.1 none, p.2)

/-- A pick-one variant of literals goes round its options. -/
theorem cycles_literals (E : Env W) (vars : List (Str × Cmd)) (being : List Str)
    (l : List (Str × Rat)) (hl : l ≠ []) (sep : Str) :
    Cycles E vars being (.variant (literals l) 1 1 sep none)
      (fun k => (l.map (·.1)).getD (k % l.length) []) := by
  have hne : literals l ≠ [] := by simpa [literals] using hl
  have hsel := variantSelections_one (literals l) hne
  have h := Cycles.variant (E := E) (vars := vars) (being := being) (opts := literals l) (lo := 1)
    (hi := 1) (sep := sep) (m := none)
    (fun c _ => match c with | .lit s _ => s | _ => []) (by simp) (by
      rintro ⟨p, m, v, w, he⟩
      match l, hl with
      | a :: l, _ => simp [literals] at he) (by rw [hsel]; simpa using hne) hne (by
      intro p hp
      obtain ⟨q, _, rfl⟩ := List.mem_map.1 hp
      exact .lit (by simp))
  convert h using 1
  funext k
  simp only [roundRobin, hsel]
  have hk : k % l.length < l.length := Nat.mod_lt _ (List.length_pos_iff.2 hl)
  simp only [literals, List.map_map, List.length_map, List.getD_eq_getElem?_getD, List.getElem?_map,
    List.getElem?_eq_getElem hk, Option.map_some, Option.getD_some, Function.comp_apply, List.map_cons,
    List.map_nil]
  simp [joined]

/-- **C12.**  Two pick-one variants with the same number `n` of literal options (any texts, any
weights), in one sequence with any text between them: the prompts show options of equal index
together, going round with period `n`. -/
theorem cyclical_in_sync (E : Env W) (ctx : Ctx) (hm : ctx.method = .cyc) (as bs : List (Str × Rat))
    (hlen : as.length = bs.length) (hne : as ≠ []) (mid sep sep' : Str) (k : Nat) (w : W) :
    ∃ N, ∀ fuel ≥ N,
      (samplePrompts E fuel ctx (.inr (.seq [.variant (literals as) 1 1 sep none, .lit mid none,
        .variant (literals bs) 1 1 sep' none] [] none)) k w).1 =
      (List.range k).map fun i => squashIf E.ignoreWs
        ((as.map (·.1)).getD (i % as.length) [] ++ mid ++ (bs.map (·.1)).getD (i % as.length) []) := by
  obtain ⟨m, vars, being⟩ := ctx
  subst hm
  have hb : bs ≠ [] := by intro e; subst e; simp at hlen; exact hne hlen
  have hc : CyclesPrompt E vars being (.inr (.seq [.variant (literals as) 1 1 sep none, .lit mid none,
        .variant (literals bs) 1 1 sep' none] [] none)) _ :=
    .cmd rfl (.seq (by simp) (.tok (by simp) (.tok (by simp) (.tok (by simp) .nil)))
      (.cons (cycles_literals E _ being as hne sep) (.cons (.lit (by simp))
        (.cons (cycles_literals E _ being bs hb sep') .nil))))
  obtain ⟨N, h⟩ := cyclical_closed_form E vars being _ _ hc k w
  refine ⟨N, fun fuel hf => ?_⟩
  rw [(h fuel hf).1]
  simp [joined_nil_sep, hlen]

/-- **C12**, the period: the prompt repeats after `n` steps. -/
theorem cyclical_period (E : Env W) (ctx : Ctx) (hm : ctx.method = .cyc) (as bs : List (Str × Rat))
    (hlen : as.length = bs.length) (hne : as ≠ []) (mid sep sep' : Str) (k : Nat) (w : W) :
    ∃ N, ∀ fuel ≥ N, ∀ i, i + as.length < k →
      (samplePrompts E fuel ctx (.inr (.seq [.variant (literals as) 1 1 sep none, .lit mid none,
        .variant (literals bs) 1 1 sep' none] [] none)) k w).1[i + as.length]? =
      (samplePrompts E fuel ctx (.inr (.seq [.variant (literals as) 1 1 sep none, .lit mid none,
        .variant (literals bs) 1 1 sep' none] [] none)) k w).1[i]? := by
  obtain ⟨N, h⟩ := cyclical_in_sync E ctx hm as bs hlen hne mid sep sep' k w
  refine ⟨N, fun fuel hf i hi => ?_⟩
  rw [h fuel hf]
  simp only [List.getElem?_map]
  rw [List.getElem?_range hi, List.getElem?_range (by omega)]
  simp

/-- Non-vacuity: `{a|b} {x|y}` sampled cyclically. -/
example : (samplePrompts Demo.env 30 (Demo.ctx .cyc) (.inr (.seq [.variant (literals [(c!"a", 1), (c!"b", 3)])
    1 1 c!"," none, .lit c!" " none, .variant (literals [(c!"x", 1), (c!"y", 1)]) 1 1 c!"," none] [] none)) 5 0).1
      = [c!"a x", c!"b y", c!"a x", c!"b y", c!"a x"] := by decide +kernel

/-- Non-vacuity of `CyclesPrompt`, with a wildcard, an immediate variable and a nested variant with
two selections: `${v=!{p|q}}{1$$__colors__|z{0|1}}${v}`. -/
example : ∃ f, CyclesPrompt Demo.env [] [] (.inr (.seq [
      .assign c!"v" (.variant (literals [(c!"p", 1), (c!"q", 1)]) 1 1 c!"," none) true true,
      .variant [(.wild (.inl c!"colors") none [], 1), (.variant (literals [(c!"0", 1), (c!"1", 1)])
        1 1 c!"," none, 1)] 1 1 c!"," none,
      .access c!"v" none] [] none)) f := by
  refine ⟨_, .cmd rfl (.seq (by simp) (.immediate (Or.inl rfl) (by simp)
    (cycles_literals _ _ _ _ (by simp) _) (.tok (by simp) (.tok (by simp) .nil))) (.cons (f := fun k => if k % 2 = 0 then
      ([c!"red", c!"blue"].getD ((k / 2) % 2) []) else ([c!"0", c!"1"].getD ((k / 2) % 2) [])) ?_ (.cons
      (.access (.var (c := .lit c!"p" none) rfl rfl) (by simp) (.lit (by simp))) .nil)))⟩
  · have h := Cycles.variant (E := Demo.env) (vars := [(c!"v", .lit c!"p" none)]) (being := [])
      (opts := [(.wild (.inl c!"colors") none [], 1), (.variant (literals [(c!"0", 1), (c!"1", 1)])
        1 1 c!"," none, 1)]) (lo := 1) (hi := 1) (sep := c!",") (m := none)
      (fun c k => match c with
        | .wild .. => [c!"red", c!"blue"].getD (k % 2) []
        | _ => [c!"0", c!"1"].getD (k % 2) []) (by simp)
      (by rintro ⟨_, _, _, _, h⟩; simp at h) (by rw [variantSelections_one _ (by simp)]; simp) (by simp) (by
        intro p hp
        simp only [List.mem_cons, List.not_mem_nil, or_false] at hp
        rcases hp with rfl | rfl
        · have hit : iterateWeighted [⟨c!"red", none⟩, ⟨c!"blue", none⟩] = [c!"red", c!"blue"] := by
            decide +kernel
          have := Cycles.wild (E := Demo.env) (vars := [(c!"v", .lit c!"p" none)]) (being := [])
            (path := .inl c!"colors") (m := none) (v := []) (p := fun _ => c!"colors")
            (items := [⟨c!"red", none⟩, ⟨c!"blue", none⟩]) (fun x _ => x) (by simp)
            (.text (f := fun _ => c!"colors") (by simp) rfl (.lit (by simp))) (fun w => ⟨w, rfl⟩) (by simp)
            (by decide +kernel) (by
              intro x hx
              have hx' : x ≠ [] := by
                rw [hit] at hx
                simp at hx
                rcases hx with rfl | rfl <;> simp
              exact .text (f := fun _ => x) hx' rfl (.lit (by simp)))
          rw [hit] at this
          exact this
        · exact cycles_literals _ _ _ _ (by simp) _)
    refine (congrArg (Cycles Demo.env _ [] _) ?_).mp h
    funext k
    rw [variantSelections_one _ (by simp)]
    simp only [roundRobin]
    have h2 : k % 2 = 0 ∨ k % 2 = 1 := by omega
    rcases h2 with h2 | h2 <;> simp [h2, joined]

end Verif.Props
