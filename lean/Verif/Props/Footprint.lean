import Verif.Proofs.Footprint
import Verif.Props.System
import Verif.Props.Crash
/-!
# C94 Only the wildcards a template asks for matter
-/

namespace Verif.Props
open Verif Verif.Spec

section
variable {W W' : Type}

theorem involved_within (E : Env W) (ctx : Ctx) (p : Prompt) {c : Cmd} (h : Involved E ctx p c) :
    AsksOnly E (MayAsk E ctx p) c := by
  intro path m v wc hc hn
  refine ⟨path, m, v, ?_, hn⟩
  generalize Cmd.wild path m v = x at hc
  induction hc with
  | refl => exact h
  | tail _ hp ih => exact .part ih hp

theorem footprint_sim {E : Env W} {R : W → W' → Prop} {rng' : Rng W'} {gv' : Str → M W' (List Item)}
    (hd : SameDraws R E.rng rng') (n : Nat) (ctx : Ctx) (p : Prompt) (k : Nat) (w : W) (w' : W') (hw : R w w')
    (hgv : ∀ wc, MayAsk E ctx p wc → ∀ w w', R w w' → SameOutcome R (E.getValues wc w) (gv' wc w')) :
    (samplePrompts E n ctx p k w).1 = (samplePrompts (swapWorld E rng' gv') n ctx p k w').1 ∧
      SameStop R (samplePrompts E n ctx p k w).2 (samplePrompts (swapWorld E rng' gv') n ctx p k w').2 := by
  unfold samplePrompts
  rw [sampleGen_swap]
  cases h : sampleGen E ctx p with
  | error e => exact ⟨rfl, rfl, hw⟩
  | ok g =>
    have hu : ∀ u, E.unknown = some u → AsksOnly E (MayAsk E ctx p) u :=
      fun u hu => involved_within E ctx p (.unknown hu)
    have hg : FP E (MayAsk E ctx p) g := by
      refine sampleGen_FP hu ⟨fun b hb => involved_within E ctx p (.var hb)⟩ ?_ h
      cases p with
      | inl s => exact fun c hc => involved_within E ctx _ (.text rfl hc)
      | inr c => exact involved_within E ctx _ (.template rfl)
    exact collect_FP hu hd hgv n k hg w w' hw

/-- **C94.**  The answers of the wildcard manager for wildcards the prompt cannot ask for do not matter: with any other
answers for them the prompts, the end and the state of the world are the same. -/
theorem only_asked_wildcards_matter (E : Env W) (gv' : Str → M W (List Item)) (ctx : Ctx) (p : Prompt)
    (h : ∀ wc, MayAsk E ctx p wc → gv' wc = E.getValues wc) (n k : Nat) (w : W) :
    samplePrompts { E with getValues := gv' } n ctx p k w = samplePrompts E n ctx p k w := by
  have := footprint_sim (E := E) (R := Eq) (rng' := E.rng) (gv' := gv')
    ⟨rfl, fun n w w' hw => by subst hw; exact ⟨rfl, rfl⟩, fun w w' hw => by subst hw; exact ⟨rfl, rfl⟩⟩
    n ctx p k w w rfl (by
      rintro wc hwc w _ rfl
      rw [h wc hwc]
      cases E.getValues wc w with
      | ok a w1 => exact ⟨rfl, rfl⟩
      | err e w1 => exact ⟨rfl, rfl⟩
      | fuel => trivial)
  change _ = (samplePrompts { E with getValues := gv' } n ctx p k w).1 ∧
    SameStop Eq _ (samplePrompts { E with getValues := gv' } n ctx p k w).2 at this
  obtain ⟨h1, h2⟩ := this
  refine Prod.ext h1.symm ?_
  generalize (samplePrompts E n ctx p k w).2 = x at h2
  generalize (samplePrompts { E with getValues := gv' } n ctx p k w).2 = y at h2
  cases x <;> cases y <;> simp only [SameStop] at h2 <;> first | exact h2.elim | rfl | skip
  · obtain ⟨rfl, rfl⟩ := h2; rfl
  · subst h2; rfl
  · obtain ⟨rfl, rfl⟩ := h2; rfl

/-- A wildcard whose name is plain text can only ask for that text. -/
theorem named_plain {E : Env W} {s t wc : Str} {m : Option Method} (hp : E.parse s = .ok (.lit t m))
    (h : Named E (.inl s) wc) : wc = if E.ignoreWs then squashWhitespace t else t := by
  obtain ⟨vars, h⟩ := h
  cases h with
  | text _ h1 h2 =>
    rw [hp] at h1
    cases h1
    cases h2
    rfl

end

/-! ## Files -/

variable {R S : Type}

/-- **C94.**  Sampling with managers over two file systems (after any histories): if every wildcard the prompt can ask for
stands for the same values in both, the prompts and the end are the same. -/
theorem same_wildcards_same_prompts (c c' : SysCfg R S) (past past' : Sys R S) (ops ops' : List (SysOp R S))
    (hc : c'.parser = c.parser ∧ c'.rng = c.rng ∧ c'.ignoreWs = c.ignoreWs ∧ c'.unknown = c.unknown ∧
      c'.mgr.wrap = c.mgr.wrap)
    (hoff : past.mgr.shuffle = false) (hoff' : past'.mgr.shuffle = false) (hq : ∀ op ∈ ops, Quiet op)
    (hq' : ∀ op ∈ ops', Quiet op) :
    let s := runSys c ops { past with mgr := Mgr.clearCache past.mgr }
    let t := runSys c' ops' { past' with mgr := Mgr.clearCache past'.mgr }
    s.mgr.sort = t.mgr.sort → s.mgr.dedup = t.mgr.dedup → s.rand = t.rand →
    ∀ shelf, OnShelf c.mgr s.mgr.fs s.mgr.sort s.mgr.dedup shelf →
    ∀ (ctx : Ctx) (p : Prompt),
    (∀ wc, MayAsk (withShelf c shelf) ctx p wc →
      ∀ found, Finds c.mgr s.mgr.fs wc found ↔ Finds c'.mgr t.mgr.fs wc found) →
    ∀ fuel k : Nat,
      (samplePrompts (system c) fuel ctx p k s).1 = (samplePrompts (system c') fuel ctx p k t).1 ∧
      SameStop (fun s' t' => s'.rand = t'.rand) (samplePrompts (system c) fuel ctx p k s).2
        (samplePrompts (system c') fuel ctx p k t).2 := by
  intro s t h2 h3 h4 shelf hs ctx p hask fuel k
  obtain ⟨shelf', hsh', -⟩ := shelf_of_files c'.mgr t.mgr.fs t.mgr.sort t.mgr.dedup
  obtain ⟨a1, a2⟩ := files_decide_prompts c past ops hoff hq shelf hs fuel ctx p k
  obtain ⟨b1, b2⟩ := files_decide_prompts c' past' ops' hoff' hq' shelf' hsh' fuel ctx p k
  have hsame : ∀ wc, MayAsk (withShelf c shelf) ctx p wc → shelf' wc = shelf wc := by
    intro wc hwc
    rw [shelf_eq hs, shelf_eq hsh']
    unfold shelfOf
    have : pureLookup c'.mgr t.mgr.fs wc = pureLookup c.mgr s.mgr.fs wc := by
      apply Option.ext
      intro found
      rw [pureLookup_finds, pureLookup_finds]
      exact (hask wc hwc found).symm
    rw [this, h2, h3]
  have he : withShelf c' shelf' = { withShelf c shelf with getValues := fun wc => M.lift (shelf' wc) } := by
    obtain ⟨e1, e2, e3, e4, e5⟩ := hc
    simp only [withShelf, e1, e2, e3, e4, e5]
  have hfr := only_asked_wildcards_matter (withShelf c shelf) (fun wc => M.lift (shelf' wc)) ctx p
    (fun wc hwc => by rw [hsame wc hwc]; rfl) fuel k s.rand
  rw [he] at b1 b2
  change (samplePrompts (system c) fuel ctx p k s).1 = _ at a1
  change SameStop (fun s' r => s'.rand = r ∧ s'.mgr.fs = s.mgr.fs) (samplePrompts (system c) fuel ctx p k s).2
    (samplePrompts (withShelf c shelf) fuel ctx p k s.rand).2 at a2
  change (samplePrompts (system c') fuel ctx p k t).1 = (samplePrompts _ fuel ctx p k t.rand).1 at b1
  change SameStop (fun s' r => s'.rand = r ∧ s'.mgr.fs = t.mgr.fs) (samplePrompts (system c') fuel ctx p k t).2
    (samplePrompts _ fuel ctx p k t.rand).2 at b2
  rw [← h4, hfr] at b1 b2
  refine ⟨a1.trans b1.symm, ?_⟩
  generalize (samplePrompts (system c) fuel ctx p k s).2 = x at a2 ⊢
  generalize (samplePrompts (system c') fuel ctx p k t).2 = y at b2 ⊢
  generalize (samplePrompts (withShelf c shelf) fuel ctx p k s.rand).2 = z at a2 b2
  cases x <;> cases z <;> simp only [SameStop] at a2 <;> try exact a2.elim
  all_goals cases y <;> simp only [SameStop] at b2 ⊢ <;> try exact b2.elim
  · exact ⟨a2.1.trans b2.1.symm, a2.2.1.trans b2.2.1.symm⟩
  · exact a2.1.trans b2.1.symm
  · exact ⟨a2.1.trans b2.1.symm, a2.2.1.trans b2.2.1.symm⟩

theorem gathers_used {U : Str → Prop} {fs fs' : FNode} {m m' : List (Str × RawColl)} (h : SameUsed U fs fs' m m')
    {pat : Str} (hp : ∀ n, fnmatch n pat = true → U n) (vs : List Item) :
    Gathers fs pat m vs ↔ Gathers fs' pat m' vs := by
  have no : ∀ {n}, ¬ U n → fnmatch n pat = false := fun hn => by
    cases h : fnmatch _ pat with
    | false => rfl
    | true => exact absurd (hp _ h) hn
  induction h generalizing vs with
  | nil => exact ⟨fun h => by cases h; exact .nil, fun h => by cases h; exact .nil⟩
  | @left n c m m' hn _ ih =>
    refine Iff.trans ?_ (ih vs)
    constructor
    · intro h
      cases h with
      | skip _ h => exact h
      | take h1 _ _ => rw [no hn] at h1; cases h1
    · exact fun h => .skip (no hn) h
  | @right n c m m' hn _ ih =>
    refine (ih vs).trans ?_
    constructor
    · exact fun h => .skip (no hn) h
    · intro h
      cases h with
      | skip _ h => exact h
      | take h1 _ _ => rw [no hn] at h1; cases h1
  | both hv _ ih =>
    constructor
    · intro h
      cases h with
      | skip h1 h => exact .skip h1 ((ih _).1 h)
      | take h1 h2 h3 => exact .take h1 ((hv _).1 h2) ((ih _).1 h3)
    · intro h
      cases h with
      | skip h1 h => exact .skip h1 ((ih _).2 h)
      | take h1 h2 h3 => exact .take h1 ((hv _).2 h2) ((ih _).2 h3)

/-- A wildcard stands for the same values if the collections it looks at are the same. -/
theorem finds_used {U : Str → Prop} {cfg cfg' : MgrCfg R} {fs fs' : FNode} (hw : cfg'.wrap = cfg.wrap)
    (h : SameUsed U fs fs' (rootMapColls cfg.lib fs cfg.roots) (rootMapColls cfg'.lib fs' cfg'.roots)) {wc : Str}
    (hu : ∀ n, LooksAt cfg.wrap wc n → U n) (found : List Item) : Finds cfg fs wc found ↔ Finds cfg' fs' wc found := by
  have h1 : ∀ w, (w = wc ∨ w = c!"**/" ++ wc) → ∀ vs, Matches cfg fs w vs ↔ Matches cfg' fs' w vs := by
    intro w hwc vs
    unfold Matches
    rw [hw]
    refine or_congr Iff.rfl ⟨?_, ?_⟩
    all_goals
      rintro ⟨pat, hp, hg⟩
      refine ⟨pat, hp, ?_⟩
      have hpat : ∀ n, fnmatch n pat = true → U n := fun n hn => hu n ⟨pat, by
        rcases hwc with rfl | rfl
        · exact .inl hp
        · exact .inr hp, hn⟩
      first | exact (gathers_used h hpat vs).1 hg | exact (gathers_used h hpat vs).2 hg
  unfold Finds
  rw [h1 wc (.inl rfl), h1 wc (.inl rfl), h1 _ (.inr rfl)]

/-- **C94.**  Files, and entries of structured files, that no wildcard of the prompt looks at do not matter: they may be
added, removed and changed, and other roots may be configured; the prompts and the end stay the same. -/
theorem unused_files_do_not_matter (c c' : SysCfg R S) (past past' : Sys R S) (ops ops' : List (SysOp R S))
    (hc : c'.parser = c.parser ∧ c'.rng = c.rng ∧ c'.ignoreWs = c.ignoreWs ∧ c'.unknown = c.unknown ∧
      c'.mgr.wrap = c.mgr.wrap)
    (hoff : past.mgr.shuffle = false) (hoff' : past'.mgr.shuffle = false) (hq : ∀ op ∈ ops, Quiet op)
    (hq' : ∀ op ∈ ops', Quiet op) :
    let s := runSys c ops { past with mgr := Mgr.clearCache past.mgr }
    let t := runSys c' ops' { past' with mgr := Mgr.clearCache past'.mgr }
    s.mgr.sort = t.mgr.sort → s.mgr.dedup = t.mgr.dedup → s.rand = t.rand →
    ∀ shelf, OnShelf c.mgr s.mgr.fs s.mgr.sort s.mgr.dedup shelf →
    ∀ (ctx : Ctx) (p : Prompt),
    SameUsed (fun n => ∃ wc, MayAsk (withShelf c shelf) ctx p wc ∧ LooksAt c.mgr.wrap wc n) s.mgr.fs t.mgr.fs
      (rootMapColls c.mgr.lib s.mgr.fs c.mgr.roots) (rootMapColls c'.mgr.lib t.mgr.fs c'.mgr.roots) →
    ∀ fuel k : Nat,
      (samplePrompts (system c) fuel ctx p k s).1 = (samplePrompts (system c') fuel ctx p k t).1 ∧
      SameStop (fun s' t' => s'.rand = t'.rand) (samplePrompts (system c) fuel ctx p k s).2
        (samplePrompts (system c') fuel ctx p k t).2 := by
  intro s t h2 h3 h4 shelf hs ctx p hu
  exact same_wildcards_same_prompts c c' past past' ops ops' hc hoff hoff' hq hq' h2 h3 h4 shelf hs ctx p
    fun wc hwc found => finds_used hc.2.2.2.2 hu (fun n hn => ⟨wc, hwc, hn⟩) found

/-- Writing an existing text file changes no collection. -/
theorem text_write_collections (lib : Lib) (roots : RootMap) {fs fs' : FNode} {p : Path} {old new : Str}
    (hr : fs.read p = some old) (hs : isStructured (p.getLastD []) = false) (hw : fs.write new p = some fs') :
    rootMapColls lib fs' roots = rootMapColls lib fs roots := by
  have hitem : ∀ item, rootItemMap lib fs' item = rootItemMap lib fs item := by
    intro item
    cases item with
    | dict d => rfl
    | path root =>
      rcases write_sameRoot hr (by rw [hs]; exact Bool.false_ne_true) hw root with ⟨h1, h2⟩ | ⟨d, d', h1, h2, hd, hw⟩
      · simp only [rootItemMap, h1, h2]
      · have hfold : ∀ (l l' : List (Path × Option Str)) (m : Dict RawColl), List.Forall₂ SameFile l l' →
            l'.foldl (fun m f => m.update (fileCollections lib root f.1 f.2)) m =
              l.foldl (fun m f => m.update (fileCollections lib root f.1 f.2)) m := by
          intro l l' m hl
          induction hl generalizing m with
          | nil => rfl
          | @cons f g l l' hf hl ih =>
            rw [List.foldl_cons, List.foldl_cons, ih]
            obtain ⟨e, hc⟩ := hf
            congr 2
            rw [← e]
            rcases hc with hc | hc
            · rw [hc]
            · exact unstructured_contents lib root f.1 hc _ _
        have hmap : dirMap lib fs' root = dirMap lib fs root := by
          simp only [dirMap, h1, h2]
          exact hfold _ _ _ (hw [])
        simp only [rootItemMap, h1, h2, hmap]
        cases d with
        | dir es =>
          obtain ⟨es', rfl⟩ := hd.1 ⟨es, rfl⟩
          rfl
        | file b =>
          cases d' with
          | dir es => obtain ⟨_, h⟩ := hd.2 ⟨es, rfl⟩; cases h
          | file _ => rfl
          | broken => rfl
        | broken =>
          cases d' with
          | dir es => obtain ⟨_, h⟩ := hd.2 ⟨es, rfl⟩; cases h
          | file _ => rfl
          | broken => rfl
  simp only [rootMapColls, rootMapPairs, hitem]

/-- **C94.**  In particular: rewriting a text file whose collections no wildcard of the prompt looks at (and clearing the
cache, or starting afresh) changes no prompt. -/
theorem rewriting_unused_file (c : SysCfg R S) (past past' : Sys R S) (ops ops' : List (SysOp R S))
    (hoff : past.mgr.shuffle = false) (hoff' : past'.mgr.shuffle = false) (hq : ∀ op ∈ ops, Quiet op)
    (hq' : ∀ op ∈ ops', Quiet op) :
    let s := runSys c ops { past with mgr := Mgr.clearCache past.mgr }
    let t := runSys c ops' { past' with mgr := Mgr.clearCache past'.mgr }
    s.mgr.sort = t.mgr.sort → s.mgr.dedup = t.mgr.dedup → s.rand = t.rand →
    ∀ (file : Path) (old new : Str), s.mgr.fs.read file = some old → isStructured (file.getLastD []) = false →
    s.mgr.fs.write new file = some t.mgr.fs →
    ∀ shelf, OnShelf c.mgr s.mgr.fs s.mgr.sort s.mgr.dedup shelf →
    ∀ (ctx : Ctx) (p : Prompt),
    (∀ n, (n, .file file) ∈ rootMapColls c.mgr.lib s.mgr.fs c.mgr.roots →
      ∀ wc, MayAsk (withShelf c shelf) ctx p wc → ¬ LooksAt c.mgr.wrap wc n) →
    ∀ fuel k : Nat,
      (samplePrompts (system c) fuel ctx p k s).1 = (samplePrompts (system c) fuel ctx p k t).1 ∧
      SameStop (fun s' t' => s'.rand = t'.rand) (samplePrompts (system c) fuel ctx p k s).2
        (samplePrompts (system c) fuel ctx p k t).2 := by
  intro s t h2 h3 h4 file old new hr hs hw shelf hsh ctx p hn
  refine unused_files_do_not_matter c c past past' ops ops' ⟨rfl, rfl, rfl, rfl, rfl⟩ hoff hoff' hq hq' h2 h3 h4 shelf hsh
    ctx p ?_
  have e := text_write_collections c.mgr.lib c.mgr.roots hr hs hw
  change SameUsed _ s.mgr.fs t.mgr.fs (rootMapColls c.mgr.lib s.mgr.fs c.mgr.roots)
    (rootMapColls c.mgr.lib t.mgr.fs c.mgr.roots)
  rw [e]
  generalize rootMapColls c.mgr.lib s.mgr.fs c.mgr.roots = m at hn
  induction m with
  | nil => exact .nil
  | cons q m ih =>
    obtain ⟨n, raw⟩ := q
    have ih := ih fun n hm => hn n (List.mem_cons_of_mem _ hm)
    by_cases hraw : raw = .file file
    · subst hraw
      have : ¬ ∃ wc, MayAsk (withShelf c shelf) ctx p wc ∧ LooksAt c.mgr.wrap wc n :=
        fun ⟨wc, h1, h2⟩ => hn n (List.mem_cons_self ..) wc h1 h2
      exact .left this (.right this ih)
    · refine .both (fun vs => ?_) ih
      cases raw with
      | items l => exact ⟨fun h => by cases h; exact .items, fun h => by cases h; exact .items⟩
      | file q =>
        have hq : q ≠ file := fun h => hraw (by rw [h])
        have := write_elsewhere hw hq
        constructor
        · intro h
          cases h with
          | file h1 h2 h3 => exact .file (by rw [this]; exact h1) h2 h3
        · intro h
          cases h with
          | file h1 h2 h3 => exact .file (by rw [← this]; exact h1) h2 h3

/-! ### An example -/

/-- The file `b.txt` written anew. -/
def rewrittenFs : FNode :=
  .dir [(c!"w", .dir [(c!"b.txt", .file c!"__d/a__ and more"), (c!"d", .dir [(c!"a.txt", .file c!"blue\ngreen")])])]

example : sysFs.write c!"__d/a__ and more" [c!"w", c!"b.txt"] = some rewrittenFs := by rfl

/-- The template asks for `d/a` only. -/
theorem ask_example (shelf : Str → Except Err (List Item))
    (hs : OnShelf sysCfg.mgr sysFs true true shelf) (wc : Str)
    (h : MayAsk (withShelf sysCfg shelf) (Demo.ctx .random) (.inl c!"{x|__d/a__}!") wc) : wc = c!"d/a" := by
  have hp1 : parse sysCfg.parser c!"d/a" = .ok (.lit c!"d/a" none) := by decide +kernel
  have hp2 : parse sysCfg.parser c!"{x|__d/a__}!" = .ok (.seq [
    .variant [(.lit c!"x" none, 1), (.wild (.inl c!"d/a") none [], 1)] 1 1 c!"," none, .lit c!"!" none] [] none) := by
    decide +kernel
  have hp3 : parse sysCfg.parser c!"blue" = .ok (.lit c!"blue" none) := by decide +kernel
  have hp4 : parse sysCfg.parser c!"green" = .ok (.lit c!"green" none) := by decide +kernel
  have hv : shelf c!"d/a" = .ok [⟨c!"blue", none⟩, ⟨c!"green", none⟩] := by
    rw [shelf_eq hs]; decide +kernel
  obtain ⟨path, m, v, hi, hn⟩ := h
  have key : ∀ c, Involved (withShelf sysCfg shelf) (Demo.ctx .random) (.inl c!"{x|__d/a__}!") c →
      c ∈ [.seq [.variant [(.lit c!"x" none, 1), (.wild (.inl c!"d/a") none [], 1)] 1 1 c!"," none, .lit c!"!" none] [] none,
        .variant [(.lit c!"x" none, 1), (.wild (.inl c!"d/a") none [], 1)] 1 1 c!"," none, .lit c!"!" none,
        .lit c!"x" none, .wild (.inl c!"d/a") none [], .lit c!"d/a" none, .lit c!"blue" none, .lit c!"green" none] := by
    intro c hc
    induction hc with
    | template h => cases h
    | text h1 h2 =>
      cases h1
      rw [show (withShelf sysCfg shelf).parse = parse sysCfg.parser from rfl, hp2] at h2
      cases h2
      simp
    | var h => simp [Demo.ctx] at h
    | unknown h => cases h
    | part _ hp ih =>
      simp only [List.mem_cons, List.not_mem_nil, or_false] at ih
      rcases ih with rfl | rfl | rfl | rfl | rfl | rfl | rfl | rfl
      · cases hp with
        | token h => simp only [List.mem_cons, List.not_mem_nil, or_false] at h; rcases h with rfl | rfl <;> simp
      · cases hp with
        | option h => simp only [List.mem_cons, List.not_mem_nil, or_false] at h; rcases h with rfl | rfl <;> simp
      · cases hp
      · cases hp
      · cases hp with
        | pathText h =>
          rw [show (withShelf sysCfg shelf).parse = parse sysCfg.parser from rfl, hp1] at h
          cases h
          simp
        | param h => cases h
        | value h1 h2 h3 h4 =>
          have := named_plain (E := withShelf sysCfg shelf) (s := c!"d/a") (t := c!"d/a") (m := none) hp1 h1
          rw [show (withShelf sysCfg shelf).ignoreWs = false from rfl] at this
          simp only [Bool.false_eq_true, if_false] at this
          subst this
          obtain ⟨w, w', hw⟩ := h2
          rw [show (withShelf sysCfg shelf).getValues c!"d/a" w = M.lift (shelf c!"d/a") w from rfl, hv] at hw
          cases hw
          simp only [List.mem_cons, List.not_mem_nil, or_false] at h3
          rcases h3 with rfl | rfl
          · rw [show (withShelf sysCfg shelf).parse = parse sysCfg.parser from rfl, hp3] at h4; cases h4; simp
          · rw [show (withShelf sysCfg shelf).parse = parse sysCfg.parser from rfl, hp4] at h4; cases h4; simp
      all_goals cases hp
  have := key _ hi
  simp only [List.mem_cons, List.not_mem_nil, or_false, reduceCtorEq, false_or, Cmd.wild.injEq] at this
  obtain ⟨rfl, rfl, rfl⟩ := this
  have := named_plain (E := withShelf sysCfg shelf) (s := c!"d/a") (t := c!"d/a") (m := none) hp1 hn
  rw [show (withShelf sysCfg shelf).ignoreWs = false from rfl] at this
  simpa using this

/-- All the hypotheses are met: `b.txt` may be written anew. -/
example (fuel k : Nat) : (samplePrompts (system sysCfg) fuel (Demo.ctx .random) (.inl c!"{x|__d/a__}!") k ⟨newMgr sysFs 0, 5⟩).1 =
    (samplePrompts (system sysCfg) fuel (Demo.ctx .random) (.inl c!"{x|__d/a__}!") k ⟨newMgr rewrittenFs 0, 5⟩).1 := by
  obtain ⟨shelf, hs, -⟩ := shelf_of_files sysCfg.mgr sysFs true true
  refine (rewriting_unused_file sysCfg ⟨newMgr sysFs 0, 5⟩ ⟨newMgr rewrittenFs 0, 5⟩ [] [] rfl rfl (by simp) (by simp)
    rfl rfl rfl [c!"w", c!"b.txt"] _ _ rfl (by decide +kernel) rfl shelf hs _ _ ?_ fuel k).1
  intro n hn wc hwc
  obtain rfl := ask_example shelf hs wc hwc
  rintro ⟨pat, hp, hm⟩
  have h1 : cleanWildcard c!"__" c!"d/a" = some c!"d/a" := by decide +kernel
  have h2 : cleanWildcard c!"__" c!"**/d/a" = some c!"**/d/a" := by decide +kernel
  have h3 : rootMapColls sysCfg.mgr.lib sysFs sysCfg.mgr.roots =
      [(c!"b", .file [c!"w", c!"b.txt"]), (c!"d/a", .file [c!"w", c!"d", c!"a.txt"])] := by decide +kernel
  change (n, RawColl.file [c!"w", c!"b.txt"]) ∈ rootMapColls sysCfg.mgr.lib sysFs sysCfg.mgr.roots at hn
  rw [h3] at hn
  have hb : n = c!"b" := by
    simp only [List.mem_cons, List.not_mem_nil, or_false, Prod.mk.injEq, RawColl.file.injEq] at hn
    rcases hn with h | h
    · exact h.1
    · exact absurd h.2 (by decide)
  subst hb
  rcases hp with hp | hp
  · rw [show sysCfg.mgr.wrap = c!"__" from rfl, h1] at hp; cases hp; revert hm; decide +kernel
  · rw [show sysCfg.mgr.wrap = c!"__" from rfl, show c!"**/" ++ c!"d/a" = c!"**/d/a" from rfl, h2] at hp
    cases hp; revert hm; decide +kernel

/-- A template that looks at `b` does notice. -/
example : (samplePrompts (system sysCfg) 40 (Demo.ctx .comb) (.inl c!"__b__!") 3 ⟨newMgr sysFs 0, 5⟩).1 ≠
    (samplePrompts (system sysCfg) 40 (Demo.ctx .comb) (.inl c!"__b__!") 3 ⟨newMgr rewrittenFs 0, 5⟩).1 := by decide +kernel

end Verif.Props
