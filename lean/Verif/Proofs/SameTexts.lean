import Verif.Spec.SameTexts
import Verif.Props.Agree
/-!
# Proofs about templates for which all sampling methods know the same prompts
-/

namespace Verif
open Spec Props
variable {W : Type} {E : Env W}

theorem resolves_eq {u : Option Cmd} {vars : List (Str × Cmd)} {n : Str} {d : Option Cmd} {c c' : Cmd}
    (h : Resolves u vars n d c) (h' : Resolves u vars n d c') : c = c' := by
  cases h <;> cases h' <;> simp_all

theorem parsesAll_eq {l : List Str} {cs cs' : List Cmd} (h : ParsesAll E l cs) (h' : ParsesAll E l cs') : cs = cs' := by
  induction h generalizing cs' with
  | nil => cases h'; rfl
  | cons h1 _ ih =>
    cases h' with
    | cons h2 h3 => rw [h1] at h2; cases h2; rw [ih h3]

theorem content_mem_iterate {items : List Item} {i : Item} (hi : i ∈ items) (hw : 1 ≤ i.weight.getD 1) :
    i.content ∈ iterateWeighted items := by
  simp only [iterateWeighted, List.mem_flatMap]
  refine ⟨i, hi, List.mem_replicate.2 ⟨?_, rfl⟩⟩
  have h1 : (1 : Int) ≤ i.w.floor := Rat.le_floor_iff.2 hw
  omega

/-- What is shown for a command: its language is the list, which combinatorial sampling lists and random sampling
could produce. -/
structure AgreeOn (E : Env W) (vars : List (Str × Cmd)) (being : List Str) (c : Cmd) (outs : List Str) : Prop where
  lang : ∀ s, Lang E vars c s ↔ s ∈ outs
  ne : outs ≠ []
  wet : ¬ Dry E vars c
  lists : Lists E vars being c outs
  could : ∀ s ∈ outs, Could E vars being c s

theorem reads_lang {vars : List (Str × Cmd)} {being : List Str} {p : Prompt} {c : Cmd} {outs : List Str}
    (hr : ReadAs E p c) (h : AgreeOn E vars being c outs) (x : Str) :
    LangPrompt E vars p x ↔ x ∈ outs.map (squashIf E.ignoreWs) := by
  rw [List.mem_map]
  constructor
  · intro hl
    cases hr with
    | text _ hp =>
      cases hl with
      | text _ hp' hl => rw [hp] at hp'; cases hp'; exact ⟨_, (h.lang _).1 hl, rfl⟩
    | cmd =>
      cases hl with
      | cmd _ hl => exact ⟨_, (h.lang _).1 hl, rfl⟩
  · rintro ⟨s, hs, rfl⟩
    cases hr with
    | text hne hp => exact .text hne hp ((h.lang _).2 hs)
    | cmd ht => exact .cmd ht ((h.lang _).2 hs)

theorem reads_lists {vars : List (Str × Cmd)} {being : List Str} {p : Prompt} {c : Cmd} {outs : List Str}
    (hr : ReadAs E p c) (h : AgreeOn E vars being c outs) :
    ListsPrompt E vars being p (outs.map (squashIf E.ignoreWs)) := by
  cases hr with
  | text hne hp => exact .text hne hp h.lists
  | cmd ht => exact .cmd ht h.lists

theorem reads_could {vars : List (Str × Cmd)} {being : List Str} {p : Prompt} {c : Cmd} {outs : List Str}
    (hr : ReadAs E p c) (h : AgreeOn E vars being c outs) (s : Str) (hs : s ∈ outs) :
    CouldPrompt E vars being p (squashIf E.ignoreWs s) := by
  cases hr with
  | text hne hp => exact .text hne hp (h.could s hs)
  | cmd ht => exact .cmd ht (h.could s hs)

theorem mem_variantTexts {opts : List (Cmd × Rat)} {lo hi : Int} {sep : Str} {f : Cmd → List Str} {s : Str} :
    s ∈ variantTexts opts lo hi sep f ↔
      ∃ cs strs, cs.length ∈ sizes opts.length lo hi ∧ cs.Nodup ∧ (∀ c ∈ cs, c ∈ opts.map (·.1)) ∧
        List.Forall₂ (fun x c => x ∈ f c) strs cs ∧ strs.Nodup ∧ s = joined sep strs := by
  simp only [variantTexts, variantSelections, List.mem_map, List.mem_eraseDups, List.mem_filter, List.mem_flatMap,
    decide_eq_true_eq, mem_selections, mem_product_iff, List.forall₂_map_right_iff]
  constructor
  · rintro ⟨strs, ⟨⟨cs, ⟨k, hk, rfl, hn, hc⟩, hf⟩, hd⟩, rfl⟩
    exact ⟨cs, strs, hk, hn, by simpa using hc, hf, hd, rfl⟩
  · rintro ⟨cs, strs, hk, hn, hc, hf, hd, rfl⟩
    exact ⟨strs, ⟨⟨cs, ⟨_, hk, rfl, hn, by simpa using hc⟩, hf⟩, hd⟩, rfl⟩

theorem finite_not_cyc {m : Option Method} (h : Spec.Finite m) : m ≠ some .cyc := by
  rcases h with h | h <;> simp [h]

theorem couldAll_forall {vars : List (Str × Cmd)} {being : List Str} {cs : List Cmd} {strs : List Str} :
    List.Forall₂ (fun x c => Could E vars being c x) strs cs → CouldAll E vars being cs strs := by
  intro h
  induction h with
  | nil => exact .nil
  | cons h1 _ ih => exact .cons h1 ih

theorem agreeOn_variant {vars : List (Str × Cmd)} {being : List Str} {opts : List (Cmd × Rat)} {lo hi : Int} {sep : Str}
    {m : Option Method} (f : Cmd → List Str) (hm : Spec.Finite m) (hw : ¬ SingleWild opts) (hne : opts ≠ [])
    (hpos : ∀ p ∈ opts, 0 < p.2) (hb : 0 ≤ max lo hi) (h1 : opts.length = 1 → lo = 1 ∧ hi = 1)
    (h : ∀ p ∈ opts, AgreeOn E vars being p.1 (f p.1))
    (hl : ∀ s, Lang E vars (.variant opts lo hi sep m) s → s ∈ variantTexts opts lo hi sep f) :
    AgreeOn E vars being (.variant opts lo hi sep m) (variantTexts opts lo hi sep f) := by
  have hopt : ∀ c ∈ opts.map (·.1), AgreeOn E vars being c (f c) := by
    intro c hc
    obtain ⟨p, hp, rfl⟩ := List.mem_map.1 hc
    exact h p hp
  have each : ∀ {P : Str → Cmd → Prop} {cs : List Cmd} {strs : List Str}, (∀ c ∈ cs, c ∈ opts.map (·.1)) →
      List.Forall₂ (fun x c => x ∈ f c) strs cs → (∀ c ∈ opts.map (·.1), ∀ x ∈ f c, P x c) →
      List.Forall₂ P strs cs := by
    intro P cs strs hc hf hP
    induction hf with
    | nil => exact .nil
    | cons h1 _ ih =>
      exact .cons (hP _ (hc _ (by simp)) _ h1) (ih fun c hc' => hc c (by simp [hc']))
  refine ⟨fun s => ⟨hl s, ?_⟩, ?_, ?_, ?_, ?_⟩
  · rw [mem_variantTexts]
    rintro ⟨cs, strs, hk, hn, hc, hf, hd, rfl⟩
    refine .variant hw hne (List.subperm_of_subset hn hc) ?_ (langAll_forall.2 (each hc hf fun c hc x hx =>
      ((hopt c hc).lang x).2 hx))
    rw [mem_sizes] at hk
    simp only [InBounds]
    omega
  · -- some selection of options, one text each
    have key : ∀ l : List Cmd, (∀ c ∈ l, c ∈ opts.map (·.1)) → ∃ strs, LangAll E vars l strs := by
      intro l
      induction l with
      | nil => intro _; exact ⟨[], .nil⟩
      | cons a l ih =>
        intro h
        obtain ⟨x, hx⟩ := List.exists_mem_of_ne_nil _ (hopt a (h a (by simp))).ne
        obtain ⟨strs, h2⟩ := ih fun c hc => h c (by simp [hc])
        exact ⟨x :: strs, .cons (((hopt a (h a (by simp))).lang x).2 hx) h2⟩
    let k := (max 0 (min (min lo hi) opts.length)).toNat
    obtain ⟨strs, hs⟩ := key ((opts.map (·.1)).take k) fun c hc => List.mem_of_mem_take hc
    refine List.ne_nil_of_mem (hl (joined sep strs) (.variant hw hne (List.take_sublist _ _).subperm ?_ hs))
    have : ((opts.map (·.1)).take k).length = min k opts.length := by simp
    rw [this]
    simp only [InBounds, k]
    omega
  · intro hd
    cases hd with
    | empty => exact hne rfl
    | single _ hd => exact (h _ (List.mem_singleton.2 rfl)).wet hd
    | wild => exact hw ⟨_, _, _, _, rfl⟩
  · exact .variant f hm hw hne fun p hp => (h p hp).lists
  · intro s hs
    refine .cmd (finite_not_cyc hm) ?_
    rw [mem_variantTexts] at hs
    obtain ⟨cs, strs, hk, hn, hc, hf, hd, rfl⟩ := hs
    have hcould := each hc hf fun c hc x hx => (hopt c hc).could x hx
    rw [mem_sizes] at hk
    rcases opts with _ | ⟨⟨c, wt⟩, _ | ⟨b, l⟩⟩
    · exact absurd rfl hne
    · obtain ⟨rfl, rfl⟩ := h1 rfl
      have hlen : cs.length = 1 := by simp at hk; omega
      obtain ⟨c', rfl⟩ := List.length_eq_one_iff.1 hlen
      have : c' = c := by simpa using hc c' (by simp)
      subst this
      cases hcould with
      | cons hx ht =>
        cases ht
        rw [joined_single]
        exact .variantSingle hw hx
    · exact .variant (by simp) hb (fun p hp => hpos p hp) (List.subperm_of_subset hn hc)
        (by simp only [InBounds]; omega) (couldAll_forall hcould)

theorem kept_not_set {vars : List (Str × Cmd)} {n : Str} {c : Cmd} (h : vars.lookup n = some c)
    (h' : false = true ∨ vars.lookup n = none) : False := by
  rcases h' with h' | h'
  · cases h'
  · rw [h] at h'; cases h'

theorem binds_eq {vars : List (Str × Cmd)} {being : List Str} {g : Cmd → Str} {toks t t' : List Cmd}
    {n n' : List (Str × Cmd)} (h : Binds g vars toks t n)
    (hi : ∀ n v o, .assign n v true o ∈ toks → (o = true ∨ vars.lookup n = none) → AgreeOn E vars being v [g v])
    (h' : Assigned E vars toks t' n') : t' = t ∧ n' = n := by
  induction h generalizing t' n' with
  | nil => cases h'; exact ⟨rfl, rfl⟩
  | tok hc _ ih =>
    cases h' with
    | tok _ h' =>
      obtain ⟨rfl, rfl⟩ := ih (fun n v o hm => hi n v o (List.mem_cons_of_mem _ hm)) h'
      exact ⟨rfl, rfl⟩
    | set _ _ => exact absurd rfl (hc _ _ _ _)
  | keep hk _ ih =>
    cases h' with
    | tok hc _ => exact absurd rfl (hc _ _ _ _)
    | set hv h' =>
      obtain ⟨rfl, rfl⟩ := ih (fun n v o hm => hi n v o (List.mem_cons_of_mem _ hm)) h'
      refine ⟨rfl, ?_⟩
      cases hv with
      | keep h => rw [hk] at h; cases h; rfl
      | plain h => exact (kept_not_set hk h).elim
      | literal h => exact (kept_not_set hk h).elim
      | immediate h => exact (kept_not_set hk h).elim
  | plain hk _ ih =>
    cases h' with
    | tok hc _ => exact absurd rfl (hc _ _ _ _)
    | set hv h' =>
      obtain ⟨rfl, rfl⟩ := ih (fun n v o hm => hi n v o (List.mem_cons_of_mem _ hm)) h'
      refine ⟨rfl, ?_⟩
      cases hv with
      | keep h => exact (kept_not_set h hk).elim
      | plain h => rfl
  | now hk hlit _ ih =>
    have hv' := hi _ _ _ (List.mem_cons_self ..) hk
    cases h' with
    | tok hc _ => exact absurd rfl (hc _ _ _ _)
    | set hv h' =>
      obtain ⟨rfl, rfl⟩ := ih (fun n v o hm => hi n v o (List.mem_cons_of_mem _ hm)) h'
      refine ⟨rfl, ?_⟩
      cases hv with
      | keep h => exact (kept_not_set h hk).elim
      | literal h =>
        obtain rfl := hlit _ _ rfl
        have := (hv'.lang _).1 .lit
        rw [List.mem_singleton] at this
        rw [← this]
      | immediate _ h =>
        have := (hv'.lang _).1 h
        rw [List.mem_singleton] at this
        rw [← this]

theorem binds_assigned {vars : List (Str × Cmd)} {being : List Str} {g : Cmd → Str} {toks t : List Cmd}
    {n : List (Str × Cmd)} (h : Binds g vars toks t n)
    (hi : ∀ n v o, .assign n v true o ∈ toks → (o = true ∨ vars.lookup n = none) → AgreeOn E vars being v [g v]) :
    Assigned E vars toks t n ∧ ListsAssigned E vars being toks t n ∧ CouldAssign E vars being toks t n := by
  induction h with
  | nil => exact ⟨.nil, .nil, .nil⟩
  | tok hc _ ih =>
    obtain ⟨h1, h2, h3⟩ := ih fun n v o hm => hi n v o (List.mem_cons_of_mem _ hm)
    exact ⟨.tok hc h1, .tok hc h2, .tok hc h3⟩
  | keep hk _ ih =>
    obtain ⟨h1, h2, h3⟩ := ih fun n v o hm => hi n v o (List.mem_cons_of_mem _ hm)
    exact ⟨.set (.keep hk) h1, .keep hk h2, .keep hk h3⟩
  | plain hk _ ih =>
    obtain ⟨h1, h2, h3⟩ := ih fun n v o hm => hi n v o (List.mem_cons_of_mem _ hm)
    exact ⟨.set (.plain hk) h1, .plain hk h2, .plain hk h3⟩
  | @now n v o cs toks new hk hlit _ ih =>
    have hv' := hi _ _ _ (List.mem_cons_self ..) hk
    obtain ⟨h1, h2, h3⟩ := ih fun n v o hm => hi n v o (List.mem_cons_of_mem _ hm)
    refine ⟨.set (.immediate hk ((hv'.lang _).2 (List.mem_singleton.2 rfl))) h1, ?_⟩
    by_cases hl : ∃ s m, v = .lit s m
    · obtain ⟨s, m, rfl⟩ := hl
      obtain rfl := hlit _ _ rfl
      have := (hv'.lang _).1 .lit
      rw [List.mem_singleton] at this
      rw [← this]
      exact ⟨.literal hk h2, .literal hk h3⟩
    · have hl' : ∀ s m, v ≠ .lit s m := fun s m e => hl ⟨s, m, e⟩
      exact ⟨.immediate hk hl' hv'.lists h2, .immediate hk hl' (hv'.could _ (List.mem_singleton.2 rfl)) h3⟩

theorem lists_method {vars : List (Str × Cmd)} {being : List Str} {opts : List (Cmd × Rat)} {lo hi : Int} {sep : Str}
    {m m' : Option Method} {outs : List Str} (h : Lists E vars being (.variant opts lo hi sep m) outs)
    (hm : Spec.Finite m') : Lists E vars being (.variant opts lo hi sep m') outs := by
  cases h with
  | empty => exact .empty hm
  | variant f _ h1 h2 h3 => exact .variant f hm h1 h2 h3
  | variantWild _ h1 h2 h3 h4 => exact .variantWild hm h1 h2 h3 h4

theorem gives_values [hW : Nonempty W] {wc : Str} {items : List Item} (h : Gives E wc items) : Values E wc items :=
  hW.elim fun w => ⟨w, w, h w⟩

theorem gives_eq {wc : Str} {items items' : List Item} (h : Gives E wc items) (h' : Values E wc items') :
    items' = items := by
  obtain ⟨w, w', h'⟩ := h'
  rw [h w] at h'
  cases h'
  rfl

/-- The language, the combinatorial list and what random sampling could produce are the same. -/
theorem sameTexts_agree [Nonempty W] {vars : List (Str × Cmd)} {being : List Str} {c : Cmd} {outs : List Str}
    (h : SameTexts E vars being c outs) : AgreeOn E vars being c outs := by
  induction h with
  | lit hm =>
    refine ⟨fun s => ⟨fun h => by cases h; simp, fun h => by rw [List.mem_singleton.1 h]; exact .lit⟩, by simp, ?_, .lit hm,
      fun s hs => ?_⟩
    · intro h; cases h
    · rw [List.mem_singleton.1 hs]
      exact .cmd (finite_not_cyc hm) .lit
  | @seq vars being toks m toks' new g f hm hB hi hc ihi ihc =>
    obtain ⟨hA, hLA, hCA⟩ := binds_assigned hB ihi
    have pad : ∀ strs : List Str, joined [] ([] :: strs ++ [[]]) = joined [] strs := by
      intro strs; rw [joined_nil_sep, joined_nil_sep]; simp
    have mem : ∀ s, s ∈ (product (toks'.map f)).map (joined []) ↔
        ∃ strs, List.Forall₂ (fun x c => x ∈ f c) strs toks' ∧ joined [] strs = s := by
      intro s
      simp only [List.mem_map, mem_product_iff, List.forall₂_map_right_iff]
    have each : ∀ {P : Str → Cmd → Prop} {cs : List Cmd} {strs : List Str}, (∀ c ∈ cs, c ∈ toks') →
        List.Forall₂ (fun x c => x ∈ f c) strs cs → (∀ c ∈ toks', ∀ x ∈ f c, P x c) → List.Forall₂ P strs cs := by
      intro P cs strs hc hf hP
      induction hf with
      | nil => exact .nil
      | cons h1 _ ih =>
        exact .cons (hP _ (hc _ (by simp)) _ h1) (ih fun c hc' => hc c (by simp [hc']))
    have back : ∀ {cs : List Cmd} {strs : List Str}, (∀ c ∈ cs, c ∈ toks') → LangAll E (new ++ vars) cs strs →
        List.Forall₂ (fun x c => x ∈ f c) strs cs := by
      intro cs strs hc hl
      rw [langAll_forall] at hl
      induction hl with
      | nil => exact .nil
      | cons h1 _ ih =>
        exact .cons (((ihc _ (hc _ (by simp))).lang _).1 h1) (ih fun c hc' => hc c (by simp [hc']))
    refine ⟨fun s => ⟨fun hl => ?_, fun hs => ?_⟩, ?_, ?_, ?_, fun s hs => ?_⟩
    · rw [mem]
      cases hl with
      | seq hA' hl =>
        obtain ⟨rfl, rfl⟩ := binds_eq hB ihi hA'
        exact ⟨_, back (fun _ h => h) hl, rfl⟩
      | seqPad hA' hl =>
        obtain ⟨rfl, rfl⟩ := binds_eq hB ihi hA'
        exact ⟨_, back (fun _ h => h) hl, (pad _).symm⟩
    · obtain ⟨strs, hf, rfl⟩ := (mem s).1 hs
      exact .seq hA (langAll_forall.2 (each (fun _ h => h) hf fun c hc x hx => ((ihc c hc).lang x).2 hx))
    · have : ∃ strs, List.Forall₂ (fun x c => x ∈ f c) strs toks' := by
        have key : ∀ l : List Cmd, (∀ c ∈ l, c ∈ toks') → ∃ strs, List.Forall₂ (fun x c => x ∈ f c) strs l := by
          intro l
          induction l with
          | nil => intro _; exact ⟨[], .nil⟩
          | cons a l ih =>
            intro h
            obtain ⟨x, hx⟩ := List.exists_mem_of_ne_nil _ (ihc a (h a (by simp))).ne
            obtain ⟨strs, h2⟩ := ih fun c hc => h c (by simp [hc])
            exact ⟨x :: strs, .cons hx h2⟩
        exact key toks' fun _ h => h
      obtain ⟨strs, h⟩ := this
      exact List.ne_nil_of_mem ((mem _).2 ⟨strs, h, rfl⟩)
    · intro h; cases h
    · have hT : ∀ l : List Cmd, (∀ c ∈ l, c ∈ toks') → ListsTokens E (new ++ vars) being l (l.map f) := by
        intro l
        induction l with
        | nil => intro _; exact .nil
        | cons a l ih =>
          intro h
          exact .cons (ihc a (h a (by simp))).lists (fun _ => (ihc a (h a (by simp))).ne)
            (ih fun c hc => h c (by simp [hc]))
      have := Lists.seq (sep := []) (m := m) hm hLA (hT toks' fun _ h => h)
      simpa only [pad] using this
    · obtain ⟨strs, hf, rfl⟩ := (mem s).1 hs
      exact .cmd (finite_not_cyc hm) (.seq hCA (couldAll_forall (each (fun _ h => h) hf fun c hc x hx =>
        (ihc c hc).could x hx)))
  | @one vars being opts sep m f hm hw hne hpos hc ih =>
    refine agreeOn_variant f hm hw hne hpos (by decide) (fun _ => ⟨rfl, rfl⟩) ih fun s hl => ?_
    rw [mem_variantTexts]
    cases hl with
    | variant _ _ hsub hb hl =>
      have hone : 1 ≤ opts.length := List.length_pos_iff.2 hne
      rename_i cs strs _ _
      have hlen : cs.length = 1 := by simp only [InBounds] at hb; omega
      obtain ⟨c, rfl⟩ := List.length_eq_one_iff.1 hlen
      have hmem : c ∈ opts.map (·.1) := hsub.subset (by simp)
      cases hl with
      | cons h1 h2 =>
        cases h2
        obtain ⟨p, hpm, rfl⟩ := List.mem_map.1 hmem
        refine ⟨[p.1], _, ?_, by simp, by simpa using hmem, .cons (((ih p hpm).lang _).1 h1) .nil, by simp, rfl⟩
        rw [mem_sizes]; simp; omega
    | variantSingle _ h1 =>
      refine ⟨_, [s], ?_, by simp, by simp, .cons (((ih _ (List.mem_singleton.2 rfl)).lang _).1 h1) .nil, by simp, rfl⟩
      rw [mem_sizes]; simp
    | variantDry _ _ hsub _ _ hd =>
      rename_i pre d post strs _ _ _ _
      obtain ⟨p, hpm, rfl⟩ := List.mem_map.1 (hsub.subset (show d ∈ pre ++ d :: post by simp))
      exact absurd hd (ih p hpm).wet
    | variantWild => exact absurd ⟨_, _, _, _, rfl⟩ hw
  | @several vars being opts lo hi sep m f hm h2 hpos hc hb hdis ih =>
    have hne : opts ≠ [] := by rintro rfl; simp at h2
    have hw : ¬ SingleWild opts := by rintro ⟨_, _, _, _, rfl⟩; simp at h2
    refine agreeOn_variant f hm hw hne hpos hb (by omega) ih fun s hl => ?_
    have hnd : (opts.map (·.1)).Nodup := by
      refine List.Pairwise.imp_of_mem ?_ hdis
      rintro a b ha _ h rfl
      obtain ⟨p, hp, rfl⟩ := List.mem_map.1 ha
      obtain ⟨s, hs⟩ := List.exists_mem_of_ne_nil _ (ih p hp).ne
      exact h s hs hs
    rw [mem_variantTexts]
    cases hl with
    | variant _ _ hsub hb' hl =>
      rename_i cs strs _ _
      have hcs : cs.Nodup := by
        obtain ⟨l, hl1, hl2⟩ := hsub
        exact hl1.nodup_iff.1 (hnd.sublist hl2)
      have hmem : ∀ c ∈ cs, c ∈ opts.map (·.1) := fun c hc => hsub.subset hc
      have hf : List.Forall₂ (fun x c => x ∈ f c) strs cs := by
        rw [langAll_forall] at hl
        clear hsub hb' hcs
        induction hl with
        | nil => exact .nil
        | @cons x c xs cs h1 _ ih' =>
          obtain ⟨p, hpm, rfl⟩ := List.mem_map.1 (hmem c (by simp))
          exact .cons (((ih p hpm).lang _).1 h1) (ih' fun c hc => hmem c (by simp [hc]))
      have hpw : ∀ a ∈ opts.map (·.1), ∀ b ∈ opts.map (·.1), a ≠ b → ∀ s, s ∈ f a → s ∉ f b := by
        have hsym : (opts.map (·.1)).Pairwise (fun a b => ∀ s, ¬ (s ∈ f a ∧ s ∈ f b)) :=
          hdis.imp fun h s hs => h s hs.1 hs.2
        intro a ha b hb hab s h1 h2
        have : Std.Symm (fun a b : Cmd => ∀ s, ¬ (s ∈ f a ∧ s ∈ f b)) :=
          ⟨fun _ _ h s hs => h s ⟨hs.2, hs.1⟩⟩
        exact hsym.forall ha hb hab s ⟨h1, h2⟩
      have hstr : strs.Nodup := by
        clear hsub hb' hl
        induction hf with
        | nil => exact .nil
        | @cons x c xs cs h1 h2 ih' =>
          rw [List.nodup_cons] at hcs ⊢
          refine ⟨fun hx => ?_, ih' hcs.2 fun c hc => hmem c (by simp [hc])⟩
          obtain ⟨c', hc', hx'⟩ : ∃ c' ∈ cs, x ∈ f c' := by
            clear ih' hcs hmem
            induction h2 with
            | nil => simp at hx
            | cons h3 _ ih4 =>
              rcases List.mem_cons.1 hx with rfl | hx
              · exact ⟨_, by simp, h3⟩
              · obtain ⟨c', h5, h6⟩ := ih4 hx
                exact ⟨c', by simp [h5], h6⟩
          exact hpw c (hmem c (by simp)) c' (hmem c' (by simp [hc'])) (by rintro rfl; exact hcs.1 hc') x h1 hx'
      refine ⟨cs, strs, ?_, hcs, hmem, hf, hstr, rfl⟩
      rw [mem_sizes]
      simp only [InBounds] at hb'
      omega
    | variantSingle => simp at h2
    | variantDry _ _ hsub _ _ hd =>
      rename_i pre d post strs _ _ _ _
      obtain ⟨p, hpm, rfl⟩ := List.mem_map.1 (hsub.subset (show d ∈ pre ++ d :: post by simp))
      exact absurd hd (ih p hpm).wet
    | variantWild => exact absurd ⟨_, _, _, _, rfl⟩ hw
  | @ofValues vars being path m' v wt lo hi sep m c q items cs outs hm hr _ hg hp _ ih1 ih2 =>
    have name : ∀ {wc}, LangPrompt E vars path wc → wc = squashIf E.ignoreWs q := fun h => by
      simpa using (reads_lang hr ih1 _).1 h
    have hname := (reads_lang hr ih1 (squashIf E.ignoreWs q)).2 (by simp)
    refine ⟨fun s => ⟨fun hl => ?_, fun hs => ?_⟩, ih2.ne, ?_, ?_, fun s hs => ?_⟩
    · cases hl with
      | variantWild h1 h2 h3 h4 =>
        obtain rfl := name h1
        obtain rfl := gives_eq hg h2
        obtain rfl := parsesAll_eq hp h3
        exact (ih2.lang s).1 h4
      | variant hw => exact absurd ⟨_, _, _, _, rfl⟩ hw
      | variantSingle hw => exact absurd ⟨_, _, _, _, rfl⟩ hw
      | variantDry hw => exact absurd ⟨_, _, _, _, rfl⟩ hw
    · exact .variantWild hname (gives_values hg) hp ((ih2.lang s).2 hs)
    · intro hd
      cases hd with
      | single hw => exact hw ⟨_, _, _, _, rfl⟩
      | wild h1 h2 h3 h4 =>
        obtain rfl := name h1
        obtain rfl := gives_eq hg h2
        obtain rfl := parsesAll_eq hp h3
        exact ih2.wet h4
    · have hL := reads_lists hr ih1
      exact .variantWild hm hL (fun w => ⟨w, hg w⟩) hp (lists_method ih2.lists (Or.inl rfl))
    · have := ih2.could s hs
      cases this with
      | cmd _ h => exact .cmd (finite_not_cyc hm) (.variantWild (reads_could hr ih1 q (by simp)) hg hp h)
  | @wild vars being path m v c q items g f hm hr _ hg hne hw hR _ ih1 ih2 =>
    have name : ∀ {wc}, LangPrompt E vars path wc → wc = squashIf E.ignoreWs q := fun h => by
      simpa using (reads_lang hr ih1 _).1 h
    have hname := (reads_lang hr ih1 (squashIf E.ignoreWs q)).2 (by simp)
    have hit : iterateWeighted items ≠ [] := by
      obtain ⟨i, hi⟩ := List.exists_mem_of_ne_nil _ hne
      exact List.ne_nil_of_mem (content_mem_iterate hi (hw i hi))
    have item : ∀ x ∈ iterateWeighted items, ∃ i ∈ items, i.content = x := by
      intro x hx
      simp only [iterateWeighted, List.mem_flatMap] at hx
      obtain ⟨i, hi, hx⟩ := hx
      exact ⟨i, hi, (List.eq_of_mem_replicate hx).symm⟩
    have le : ∀ i ∈ items, (0 : Rat) < i.weight.getD 1 := fun i hi => lt_of_lt_of_le (by norm_num) (hw i hi)
    refine ⟨fun s => ⟨fun hl => ?_, fun hs => ?_⟩, ?_, ?_, ?_, fun s hs => ?_⟩
    · cases hl with
      | wild h1 h2 h3 h4 =>
        obtain rfl := name h1
        obtain rfl := gives_eq hg h2
        exact List.mem_flatMap.2 ⟨_, content_mem_iterate h3 (hw _ h3), (reads_lang (hR _ h3) (ih2 _ h3) s).1 h4⟩
      | wildMissing h1 h2 =>
        obtain rfl := name h1
        exact absurd (gives_eq hg h2).symm hne
      | wildMissingCmd h1 h2 =>
        obtain rfl := name h1
        exact absurd (gives_eq hg h2).symm hne
    · obtain ⟨x, hx, hs⟩ := List.mem_flatMap.1 hs
      obtain ⟨i, hi, rfl⟩ := item x hx
      exact .wild hname (gives_values hg) hi ((reads_lang (hR _ hi) (ih2 _ hi) s).2 hs)
    · obtain ⟨i, hi⟩ := List.exists_mem_of_ne_nil _ hne
      obtain ⟨s, hs⟩ := List.exists_mem_of_ne_nil _ (ih2 i hi).ne
      exact List.ne_nil_of_mem (List.mem_flatMap.2 ⟨_, content_mem_iterate hi (hw _ hi), List.mem_map.2 ⟨s, hs, rfl⟩⟩)
    · intro hd
      cases hd with
      | values h1 h2 h3 =>
        obtain rfl := name h1
        obtain rfl := gives_eq hg h2
        exact hit h3
    · refine .wild _ hm (reads_lists hr ih1) (fun w => ⟨w, hg w⟩) hne fun x hx => ?_
      obtain ⟨i, hi, rfl⟩ := item x hx
      exact reads_lists (hR i hi) (ih2 i hi)
    · obtain ⟨x, hx, hs⟩ := List.mem_flatMap.1 hs
      obtain ⟨i, hi, rfl⟩ := item x hx
      obtain ⟨t, ht, rfl⟩ := List.mem_map.1 hs
      exact .cmd (finite_not_cyc hm) (.wild (reads_could hr ih1 q (by simp)) hg (fun i hi => (le i hi).le) hi (le i hi)
        (reads_could (hR i hi) (ih2 i hi) t ht))
  | access hr hb _ ih =>
    refine ⟨fun s => ⟨fun hl => ?_, fun hs => .access hr ((ih.lang s).2 hs)⟩, ih.ne, ?_, .access hr hb ih.lists,
      fun s hs => .access hr hb (ih.could s hs)⟩
    · cases hl with
      | access hr' hl => rw [resolves_eq hr' hr] at hl; exact (ih.lang s).1 hl
    · intro hd
      cases hd with
      | access hr' hd => rw [resolves_eq hr' hr] at hd; exact ih.wet hd
  | @wrap vars being w i m xs ys hm hwt hit _ _ hx hy ih1 ih2 =>
    have same : ∀ {l : List Str} {a b}, (∀ x ∈ l, squashIf E.ignoreWs x = x) → a ∈ l → Squashed E a b → b = a := by
      intro l a b hl ha h
      cases h with
      | same => rfl
      | squash h => have := hl a ha; simpa [squashIf, h] using this
    have whole : ∀ {l : List Str}, (∀ x ∈ l, squashIf E.ignoreWs x = x) → l.map (squashIf E.ignoreWs) = l :=
      fun h => by rw [List.map_congr_left h]; simp
    have mem : ∀ s, s ∈ (xs.flatMap fun x => ys.map (wrapWith x)) ↔ ∃ x ∈ xs, ∃ y ∈ ys, wrapWith x y = s := by
      intro s; simp only [List.mem_flatMap, List.mem_map]
    refine ⟨fun s => ⟨fun hl => ?_, fun hs => ?_⟩, ?_, ?_, ?_, fun s hs => ?_⟩
    · rw [mem]
      cases hl with
      | wrap h1 h2 h3 h4 =>
        have h1 := (ih1.lang _).1 h1
        have h2 := (ih2.lang _).1 h2
        rw [same hx h1 h3, same hy h2 h4]
        exact ⟨_, h1, _, h2, rfl⟩
    · obtain ⟨x, h1, y, h2, rfl⟩ := (mem s).1 hs
      exact .wrap ((ih1.lang x).2 h1) ((ih2.lang y).2 h2) .same .same
    · obtain ⟨x, h1⟩ := List.exists_mem_of_ne_nil _ ih1.ne
      obtain ⟨y, h2⟩ := List.exists_mem_of_ne_nil _ ih2.ne
      exact List.ne_nil_of_mem ((mem _).2 ⟨x, h1, y, h2, rfl⟩)
    · intro hd
      cases hd with
      | wrapper h => exact ih1.wet h
      | inner h => exact ih2.wet h
    · have h1 := ListsPrompt.cmd (E := E) hwt ih1.lists
      have h2 := ListsPrompt.cmd (E := E) hit ih2.lists
      rw [whole hx] at h1
      rw [whole hy] at h2
      exact .wrap hm h1 h2
    · obtain ⟨x, h1, y, h2, rfl⟩ := (mem s).1 hs
      exact .cmd (finite_not_cyc hm) (.wrap (ih1.could x h1) (ih2.could y h2))

end Verif
