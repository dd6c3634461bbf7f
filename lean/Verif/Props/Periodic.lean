import Verif.Props.Listing
import Verif.Props.Cyclical
/-!
# Cyclical sampling of template texts with wildcard files (C84)
-/

namespace Verif.Props
open Verif Verif.Spec
variable {W R S : Type}

/-- The function repeats after `n > 0` steps. -/
def Repeats {α : Type} (f : Nat → α) (n : Nat) : Prop := 0 < n ∧ ∀ k, f (k + n) = f k

theorem Repeats.mul {α : Type} {f : Nat → α} {n : Nat} (h : Repeats f n) {m : Nat} (hm : 0 < m) :
    Repeats f (n * m) := by
  refine ⟨Nat.mul_pos h.1 hm, ?_⟩
  clear hm
  induction m with
  | zero => intro k; rfl
  | succ m ih => intro k; rw [Nat.mul_succ, ← Nat.add_assoc, h.2, ih]

theorem Repeats.comp {α β : Type} {f : Nat → α} {n : Nat} (h : Repeats f n) (g : α → β) :
    Repeats (fun k => g (f k)) n := ⟨h.1, fun k => congrArg g (h.2 k)⟩

/-- Finitely many periods have a common multiple. -/
theorem common_period {α ι : Type} (F : ι → Nat → α) (l : List ι) (h : ∀ i ∈ l, ∃ n, Repeats (F i) n) :
    ∃ n, 0 < n ∧ ∀ i ∈ l, Repeats (F i) n := by
  induction l with
  | nil => exact ⟨1, by omega, by simp⟩
  | cons a l ih =>
    obtain ⟨n, hn, h1⟩ := ih fun i hi => h i (by simp [hi])
    obtain ⟨m, hm⟩ := h a (by simp)
    refine ⟨m * n, Nat.mul_pos hm.1 hn, fun i hi => ?_⟩
    rcases List.mem_cons.1 hi with rfl | hi
    · exact hm.mul hn
    · rw [Nat.mul_comm]; exact (h1 i hi).mul hm.1

theorem roundRobin_repeats {α : Type} {n : Nat} (hn : 0 < n) {f : Nat → Nat → α} {p : Nat}
    (hp : 0 < p) (h : ∀ i < n, Repeats (f i) p) : Repeats (roundRobin n f) (n * p) := by
  refine ⟨Nat.mul_pos hn hp, fun k => ?_⟩
  simp only [roundRobin]
  rw [Nat.add_mul_mod_self_left, Nat.add_mul_div_left _ _ hn, (h _ (Nat.mod_lt _ hn)).2]

mutual
theorem cycles_repeats {E : Env W} {vars : List (Str × Cmd)} {being : List Str} {c : Cmd} {f : Nat → Str}
    (h : Cycles E vars being c f) : ∃ n, Repeats f n := by
  match h with
  | .lit _ => exact ⟨1, by omega, fun _ => rfl⟩
  | .seq (fs := fs) (sep := sep) _ _ hall =>
    have h1 := cyclesAll_repeats hall
    obtain ⟨n, hn, h2⟩ := common_period (fun f => f) fs h1
    refine ⟨n, hn, fun k => ?_⟩
    have : fs.map (fun f => f (k + n)) = fs.map fun f => f k := List.map_congr_left fun f hf => (h2 f hf).2 k
    dsimp only
    rw [this]
  | .variant (opts := opts) (lo := lo) (hi := hi) (sep := sep) f _ _ hsel _ hopts =>
    have h1 : ∀ p ∈ opts, ∃ n, Repeats (f p.1) n := fun p hp => cycles_repeats (hopts p hp)
    obtain ⟨n, hn, h2⟩ := common_period (fun p : Cmd × Rat => f p.1) opts h1
    refine ⟨_, roundRobin_repeats (List.length_pos_iff.2 hsel) hn fun i hi' => ⟨hn, fun k => ?_⟩⟩
    refine congrArg (joined sep) (List.map_congr_left fun c hc => ?_)
    rw [List.getD_eq_getElem?_getD, List.getElem?_eq_getElem hi', Option.getD_some] at hc
    obtain ⟨k', -, hk⟩ := List.mem_flatMap.1 (List.getElem_mem hi')
    rw [← getCombos_eq_selections] at hk
    obtain ⟨p, hp, rfl⟩ := List.mem_map.1 ((mem_getCombos.1 hk).2.2 c hc)
    exact (h2 p hp).2 k
  | .variantWild _ _ _ _ h' => exact cycles_repeats h'
  | .wild (items := items) f _ _ _ _ hne hvals =>
    have h1 : ∀ x ∈ iterateWeighted items, ∃ n, Repeats (f x) n := fun x hx => cyclesPrompt_repeats (hvals x hx)
    obtain ⟨n, hn, h2⟩ := common_period f (iterateWeighted items) h1
    refine ⟨_, roundRobin_repeats (List.length_pos_iff.2 hne) hn fun i hi => ⟨hn, fun k => ?_⟩⟩
    refine (h2 _ ?_).2 k
    rw [List.getD_eq_getElem?_getD, List.getElem?_eq_getElem hi, Option.getD_some]
    exact List.getElem_mem hi
  | .wildMissing _ _ _ => exact ⟨1, by omega, fun _ => rfl⟩
  | .access _ _ h' => exact cycles_repeats h'
theorem cyclesAll_repeats {E : Env W} {vars : List (Str × Cmd)} {being : List Str} {cs : List Cmd}
    {fs : List (Nat → Str)} (h : CyclesAll E vars being cs fs) : ∀ f ∈ fs, ∃ n, Repeats f n := by
  match h with
  | .nil => simp
  | .cons h1 h2 =>
    have a := cycles_repeats h1
    have b := cyclesAll_repeats h2
    intro f hf
    rcases List.mem_cons.1 hf with rfl | hf
    · exact a
    · exact b f hf
theorem cyclesPrompt_repeats {E : Env W} {vars : List (Str × Cmd)} {being : List Str} {p : Prompt}
    {f : Nat → Str} (h : CyclesPrompt E vars being p f) : ∃ n, Repeats f n := by
  match h with
  | .text _ _ h1 =>
    obtain ⟨n, hn⟩ := cycles_repeats h1
    exact ⟨n, hn.comp _⟩
  | .cmd _ h1 =>
    obtain ⟨n, hn⟩ := cycles_repeats h1
    exact ⟨n, hn.comp _⟩
end

/-- **C84.**  Cyclical prompts repeat: for every template with a closed form there is a period `n > 0` after which
all prompts come again, in the same order and from the first one on. -/
theorem cyclical_repeats (E : Env W) (vars : List (Str × Cmd)) (being : List Str) (p : Prompt) (f : Nat → Str)
    (h : CyclesPrompt E vars being p f) :
    ∃ n, 0 < n ∧ ∀ k (w : W), ∃ N, ∀ fuel ≥ N, ∀ i, i + n < k →
      (samplePrompts E fuel ⟨.cyc, vars, being⟩ p k w).1[i + n]? =
        (samplePrompts E fuel ⟨.cyc, vars, being⟩ p k w).1[i]? := by
  obtain ⟨n, hn, hr⟩ := cyclesPrompt_repeats h
  refine ⟨n, hn, fun k w => ?_⟩
  obtain ⟨N, hN⟩ := cyclical_closed_form E vars being p f h k w
  refine ⟨N, fun fuel hf i hi => ?_⟩
  rw [(hN fuel hf).1]
  simp only [List.getElem?_map]
  rw [List.getElem?_range hi, List.getElem?_range (by omega)]
  simp [hr]

/-- **C84.**  From text and files to cyclical prompts: let anything have happened to the manager before its cache was
cleared, and since then no file changed and nothing was shuffled.  If the template, with the files' values for its
wildcards, has the closed form `f`, then the `i`-th prompt made from its text is `f i`, for every `i`. -/
theorem cyclical_files (c : SysCfg R S) (M : Marks) (al : Char → Bool)
    (hM : M.usable al = true) (hc : c.parser = .of M al)
    (past : Sys R S) (ops : List (SysOp R S)) (hoff : past.mgr.shuffle = false) (hq : ∀ op ∈ ops, Quiet op) :
    let s := runSys c ops { past with mgr := Mgr.clearCache past.mgr }
    ∀ shelf, OnShelf c.mgr s.mgr.fs s.mgr.sort s.mgr.dedup shelf →
    ∀ (ps : List Piece), Spec.ok .top ps M = true → '\t' ∉ source ps M → source ps M ≠ [] →
    ∀ (ctx : Ctx) (f : Nat → Str), ctx.method = .cyc →
      Cycles (withShelf c shelf) ctx.vars ctx.being (meaning ps) f →
      ∀ k, ∃ N, ∀ fuel ≥ N,
        (samplePrompts (system c) fuel ctx (.inl (source ps M)) k s).1 =
          (List.range k).map fun i => squashIf c.ignoreWs (f i) := by
  intro s shelf hs ps hok ht hne ctx f hm hl k
  have hp : (withShelf c shelf).parse (source ps M) = .ok (meaning ps) := by
    show parse c.parser (source ps M) = _
    rw [hc]
    exact parse_source_marks M al hM ps hok ht
  obtain ⟨m, vars, being⟩ := ctx
  obtain rfl : m = .cyc := hm
  obtain ⟨N, hN⟩ := cyclical_closed_form (withShelf c shelf) vars being _ _ (.text hne hp hl) k s.rand
  refine ⟨N, fun fuel hf => ?_⟩
  obtain ⟨e1, -⟩ := files_decide_prompts c past ops hoff hq shelf hs fuel ⟨.cyc, vars, being⟩ (.inl (source ps M)) k
  exact e1.trans (hN fuel hf).1

/-! ### Examples -/

/-- The wildcard `d/a` of the example directory (`blue`, `green`), from the files. -/
example : Cycles (withShelf sysCfg (shelfOf sysCfg.mgr sysFs true true)) [] []
      (meaning [.wild none [.text c!"d/a"] []]) (fun k => [c!"blue", c!"green"].getD (k % 2) []) ∧
    Spec.ok .top [.wild none [.text c!"d/a"] []] = true ∧ source [.wild none [.text c!"d/a"] []] = c!"__d/a__" := by
  refine ⟨?_, by decide +kernel, by decide +kernel⟩
  have e : meaning [.wild none [.text c!"d/a"] []] = .wild (.inl c!"d/a") none [] := by decide +kernel
  rw [e]
  have hit : iterateWeighted [⟨c!"blue", none⟩, ⟨c!"green", none⟩] = [c!"blue", c!"green"] := by decide +kernel
  have := Cycles.wild (E := withShelf sysCfg (shelfOf sysCfg.mgr sysFs true true)) (vars := []) (being := [])
    (path := .inl c!"d/a") (m := none) (v := []) (p := fun _ => c!"d/a")
    (items := [⟨c!"blue", none⟩, ⟨c!"green", none⟩]) (fun t _ => t) (by simp)
    (.text (c := .lit c!"d/a" none) (f := fun _ => c!"d/a") (by simp) (by decide +kernel) (.lit (by simp)))
    (fun w => ⟨w, by
      have : shelfOf sysCfg.mgr sysFs true true c!"d/a" = .ok [⟨c!"blue", none⟩, ⟨c!"green", none⟩] := by
        decide +kernel
      show M.lift (shelfOf sysCfg.mgr sysFs true true c!"d/a") w = _
      rw [this]; rfl⟩) (by simp) (by decide +kernel) (by
      intro t ht
      rw [hit] at ht
      have ht : t = c!"blue" ∨ t = c!"green" := by simpa using ht
      rcases ht with rfl | rfl
      · exact .text (c := .lit c!"blue" none) (f := fun _ => c!"blue") (by simp) (by decide +kernel) (.lit (by simp))
      · exact .text (c := .lit c!"green" none) (f := fun _ => c!"green") (by simp) (by decide +kernel) (.lit (by simp)))
  rw [hit] at this
  exact this

end Verif.Props
