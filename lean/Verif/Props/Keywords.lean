import Verif.Spec.Keywords
import Mathlib.Data.List.Nodup
/-!
# The keyword finder of the attention generator (C89)
-/

namespace Verif.Props
open Verif Verif.Spec

variable {Nlp X : Type}

/-- Getting a keyword finder when there is none yet. -/
theorem getChunker_obtains (S : Spacy Nlp X) (c : KwCache Nlp) (hc : c.finder = none) (x : X) :
    ∃ r x', Obtained S x r x' ∧ getChunker S c x = match r with
      | .ok f => (.ok f, { c with finder := some f }, x')
      | .error e => (.error e, c, x') := by
  have fail : ∀ e x', FailsWith S x e x' → getSpacyChunker S x = (.error e, x') →
      ∃ r x', Obtained S x r x' ∧ getChunker S c x = match r with
      | .ok f => (.ok f, { c with finder := some f }, x')
      | .error e => (.error e, c, x') := by
    intro e x' h1 h2
    by_cases he : e = .importError
    · subst he
      exact ⟨_, _, .missing h1, by simp only [getChunker, hc, h2]⟩
    · refine ⟨_, _, .failed he h1, ?_⟩
      simp only [getChunker, hc, h2]
  have good : ∀ nlp x', Obtained S x (.ok (.spacy nlp)) x' → getSpacyChunker S x = (.ok nlp, x') →
      ∃ r x', Obtained S x r x' ∧ getChunker S c x = match r with
      | .ok f => (.ok f, { c with finder := some f }, x')
      | .error e => (.error e, c, x') := by
    intro nlp x' h1 h2
    exact ⟨_, _, h1, by simp only [getChunker, hc, h2]⟩
  rcases h1 : S.importSpacy x with ⟨e | u, x₁⟩
  · exact fail e x₁ (.noSpacy h1) (by simp only [getSpacyChunker, h1])
  rcases h2 : S.load x₁ with ⟨e | nlp₁, x₂⟩
  · by_cases he : e = .osError
    · subst he
      rcases h3 : S.importDownload x₂ with ⟨e | u, x₃⟩
      · exact fail e x₃ (.noDownloader h1 h2 h3) (by simp only [getSpacyChunker, h1, h2, h3])
      rcases h4 : S.download x₃ with ⟨e | u, x₄⟩
      · exact fail e x₄ (.noDownload h1 h2 h3 h4) (by simp only [getSpacyChunker, h1, h2, h3, h4])
      rcases h5 : S.load x₄ with ⟨e | nlp, x₅⟩
      · exact fail e x₅ (.noReload h1 h2 h3 h4 h5) (by simp only [getSpacyChunker, h1, h2, h3, h4, h5])
      · exact good nlp x₅ (.downloaded h1 h2 h3 h4 h5) (by simp only [getSpacyChunker, h1, h2, h3, h4, h5])
    · refine fail e x₂ (.noLoad h1 h2 he) ?_
      simp only [getSpacyChunker, h1, h2]
  · rcases h3 : S.load x₂ with ⟨e | nlp, x₃⟩
    · exact fail e x₃ (.noSecondLoad h1 h2 h3) (by simp only [getSpacyChunker, h1, h2, h3])
    · exact good nlp x₃ (.installed h1 h2 h3) (by simp only [getSpacyChunker, h1, h2, h3])

/-- What an attempt gives is determined. -/
theorem obtained_unique (S : Spacy Nlp X) {x x₁ x₂ : X} {r₁ r₂ : Except LibErr (Finder Nlp)}
    (h₁ : Obtained S x r₁ x₁) (h₂ : Obtained S x r₂ x₂) : r₁ = r₂ ∧ x₁ = x₂ := by
  have key : ∀ r x', Obtained S x r x' → (match (getSpacyChunker S x).1 with
      | .ok nlp => .ok (.spacy nlp)
      | .error .importError => .ok .cheap
      | .error e => .error e) = r ∧ (getSpacyChunker S x).2 = x' := by
    have hf : ∀ e x', FailsWith S x e x' → getSpacyChunker S x = (.error e, x') := by
      intro e x' h
      cases h with
      | noSpacy a => simp only [getSpacyChunker, a]
      | noLoad a b c => simp only [getSpacyChunker, a, b]
      | noSecondLoad a b c => simp only [getSpacyChunker, a, b, c]
      | noDownloader a b c => simp only [getSpacyChunker, a, b, c]
      | noDownload a b c d => simp only [getSpacyChunker, a, b, c, d]
      | noReload a b c d e => simp only [getSpacyChunker, a, b, c, d, e]
    intro r x' h
    cases h with
    | installed a b c => simp only [getSpacyChunker, a, b, c]; exact ⟨trivial, trivial⟩
    | downloaded a b c d e => simp only [getSpacyChunker, a, b, c, d, e]; exact ⟨trivial, trivial⟩
    | missing a => rw [hf _ _ a]; exact ⟨rfl, rfl⟩
    | failed he a =>
      rw [hf _ _ a]
      rename_i e
      cases e <;> first | exact absurd rfl he | exact ⟨rfl, rfl⟩
  obtain ⟨a, b⟩ := key _ _ h₁
  obtain ⟨c, d⟩ := key _ _ h₂
  exact ⟨a.symm.trans c, b.symm.trans d⟩

/-- The cached keywords are those the finder would give. -/
def MemoOk (g : Nlp → Str → Except LibErr (List Str)) (isDigit : Char → Bool) (f : Finder Nlp)
    (memo : List (Str × List Str)) : Prop :=
  ∀ q ∈ memo, answer g isDigit f q.1 = .ok q.2

private theorem lookup_mem {l : List (Str × List Str)} {t : Str} {v : List Str} (h : l.lookup t = some v) :
    (t, v) ∈ l := by
  induction l with
  | nil => simp at h
  | cons a l ih =>
    obtain ⟨k, u⟩ := a
    simp only [List.lookup_cons] at h
    split at h
    · rename_i e; simp only [beq_iff_eq] at e; cases h; simp [e]
    · exact List.mem_cons_of_mem _ (ih h)

private theorem lookup_none {l : List (Str × List Str)} {t : Str} : l.lookup t = none ↔ t ∉ l.map (·.1) := by
  induction l with
  | nil => simp
  | cons a l ih =>
    obtain ⟨k, u⟩ := a
    simp only [List.lookup_cons, List.map_cons, List.mem_cons, not_or]
    split
    · rename_i e; simp only [beq_iff_eq] at e; simp [e]
    · rename_i e
      rw [ih]
      have : t ≠ k := by simpa using e
      simp [this]

/-- One call when there is a finder. -/
theorem find_with_finder (S : Spacy Nlp X) (isDigit : Char → Bool) (g : Nlp → Str → Except LibErr (List Str))
    (f : Finder Nlp) (hg : ∀ nlp, f = .spacy nlp → ∀ t x, (S.chunks nlp t x).1 = g nlp t) (memo : List (Str × List Str))
    (hm : MemoOk g isDigit f memo) (t : Str) (x : X) :
    ∃ memo' x', findNounChunks S isDigit t ⟨some f, memo⟩ x = (answer g isDigit f t, ⟨some f, memo'⟩, x') ∧
      MemoOk g isDigit f memo' := by
  have hfind : ∃ x', f.find S isDigit t x = (answer g isDigit f t, x') := by
    cases f with
    | cheap => exact ⟨x, rfl⟩
    | spacy nlp =>
      refine ⟨(S.chunks nlp t x).2, ?_⟩
      simp only [Finder.find, answer, ← hg nlp rfl t x]
  unfold findNounChunks
  cases hl : memo.lookup t with
  | some ks =>
    have := hm _ (lookup_mem hl)
    refine ⟨(t, ks) :: memo.filter (fun q => q.1 ≠ t), x, by simp only [this], ?_⟩
    intro q hq
    rcases List.mem_cons.1 hq with rfl | hq
    · exact this
    · exact hm q (List.mem_of_mem_filter hq)
  | none =>
    obtain ⟨x', e⟩ := hfind
    simp only [getChunker, e]
    cases ha : answer g isDigit f t with
    | error e' => exact ⟨memo, x', rfl, hm⟩
    | ok ks =>
      refine ⟨_, x', rfl, ?_⟩
      intro q hq
      rcases List.mem_cons.1 (List.mem_of_mem_take hq) with rfl | hq
      · exact ha
      · exact hm q hq

/-- A history when there is a finder. -/
theorem findAll_with_finder (S : Spacy Nlp X) (isDigit : Char → Bool) (g : Nlp → Str → Except LibErr (List Str))
    (f : Finder Nlp) (hg : ∀ nlp, f = .spacy nlp → ∀ t x, (S.chunks nlp t x).1 = g nlp t) (ts : List Str) :
    ∀ (memo : List (Str × List Str)) (x : X), MemoOk g isDigit f memo →
      (findAll S isDigit ts ⟨some f, memo⟩ x).1 = ts.map (answer g isDigit f) := by
  induction ts with
  | nil => intros; rfl
  | cons t ts ih =>
    intro memo x hm
    obtain ⟨memo', x', e, hm'⟩ := find_with_finder S isDigit g f hg memo hm t x
    simp only [findAll, e, List.map_cons, ih memo' x' hm']

/-- A history in which the first attempt to get a finder succeeds. -/
theorem findAll_from_start (S : Spacy Nlp X) (isDigit : Char → Bool) (f : Finder Nlp) (x x' : X)
    (h : Obtained S x (.ok f) x') (t : Str) (ts : List Str) :
    findAll S isDigit (t :: ts) (⟨none, []⟩ : KwCache Nlp) x = findAll S isDigit (t :: ts) ⟨some f, []⟩ x' := by
  obtain ⟨r, x₁, ho, e⟩ := getChunker_obtains S (⟨none, []⟩ : KwCache Nlp) rfl x
  obtain ⟨rfl, rfl⟩ := obtained_unique S ho h
  have h1 : findNounChunks S isDigit t (⟨none, []⟩ : KwCache Nlp) x =
      findNounChunks S isDigit t ⟨some f, []⟩ x₁ := by
    unfold findNounChunks
    simp only [List.lookup_nil, e]
    rfl
  simp only [findAll, h1]

/-- **C89.**  Whatever texts keywords are asked for in a process, one after the other: as long as getting a keyword
finder fails (with anything but an ImportError) the calls raise the exceptions of these attempts; the first finder
obtained answers that call and all later ones, and what it answers does not depend on the caches. -/
theorem keywords_found (S : Spacy Nlp X) (isDigit : Char → Bool) (g : Nlp → Str → Except LibErr (List Str))
    (hg : ∀ nlp t x, (S.chunks nlp t x).1 = g nlp t) (texts : List Str) (x : X) :
    ∃ es x₁, Attempts S x es x₁ ∧
      ((findAll S isDigit texts ⟨none, []⟩ x).1 = es.map .error ∧ es.length = texts.length ∨
       ∃ f x₂, Obtained S x₁ (.ok f) x₂ ∧ es.length < texts.length ∧
        (findAll S isDigit texts ⟨none, []⟩ x).1 =
          es.map .error ++ (texts.drop es.length).map (answer g isDigit f)) := by
  induction texts generalizing x with
  | nil => exact ⟨[], x, .none, .inl ⟨rfl, rfl⟩⟩
  | cons t ts ih =>
    obtain ⟨r, x', ho, e⟩ := getChunker_obtains S (⟨none, []⟩ : KwCache Nlp) rfl x
    cases r with
    | error e' =>
      have h1 : findNounChunks S isDigit t (⟨none, []⟩ : KwCache Nlp) x = (.error e', ⟨none, []⟩, x') := by
        simp only [findNounChunks, List.lookup_nil, e]
      obtain ⟨es, x₁, h2, h3⟩ := ih x'
      refine ⟨e' :: es, x₁, .again ho h2, ?_⟩
      rcases h3 with ⟨h3, h4⟩ | ⟨f, x₂, h3, h4, h5⟩
      · left; simp only [findAll, h1, h3]; exact ⟨rfl, by simp [h4]⟩
      · right; refine ⟨f, x₂, h3, by simp [h4], ?_⟩
        simp only [findAll, h1, h5]; rfl
    | ok f =>
      refine ⟨[], x, .none, .inr ⟨f, x', ho, by simp, ?_⟩⟩
      rw [findAll_from_start S isDigit f x x' ho, findAll_with_finder S isDigit g f (fun nlp _ => hg nlp) _ [] x' (by
        intro q hq; cases hq)]
      rfl

private theorem recent_nodup (h : List Str) : (recentTexts h).Nodup := by
  induction h with
  | nil => simp [recentTexts]
  | cons t h ih => simp [recentTexts, ih.filter]

/-- The texts of the cache after one more. -/
private theorem recent_take (h : List Str) (t : Str) :
    (recentTexts (t :: h)).take 10 =
      if t ∈ (recentTexts h).take 10 then t :: ((recentTexts h).take 10).filter (· ≠ t)
      else (t :: (recentTexts h).take 10).take 10 := by
  have miss : ∀ (n : Nat) (r : List Str), t ∉ r.take n → (r.filter (· ≠ t)).take n = r.take n := by
    intro n r
    induction r generalizing n with
    | nil => simp
    | cons a r ih =>
      intro hm
      cases n with
      | zero => simp
      | succ n =>
        simp only [List.take_succ_cons, List.mem_cons, not_or] at hm
        have : (fun b => decide (b ≠ t)) a = true := by simpa using fun e => hm.1 e.symm
        rw [List.filter_cons_of_pos (p := fun b => decide (b ≠ t)) this, List.take_succ_cons, List.take_succ_cons, ih n hm.2]
  have hit : ∀ (n : Nat) (r : List Str), r.Nodup → t ∈ r.take (n + 1) →
      (r.filter (· ≠ t)).take n = (r.take (n + 1)).filter (· ≠ t) := by
    intro n r
    induction r generalizing n with
    | nil => simp
    | cons a r ih =>
      intro hn hm
      by_cases hat : a = t
      · subst hat
        have hnr : a ∉ r := (List.nodup_cons.1 hn).1
        have hf : ∀ l : List Str, a ∉ l → l.filter (· ≠ a) = l := by
          intro l hl
          rw [List.filter_eq_self]
          intro b hb
          have : b ≠ a := fun e => hl (e ▸ hb)
          simpa using this
        rw [List.take_succ_cons, List.filter_cons_of_neg (by simp), List.filter_cons_of_neg (by simp), hf r hnr,
          hf (r.take n) fun h => hnr (List.mem_of_mem_take h)]
      · have hd : (fun b => decide (b ≠ t)) a = true := by simpa using hat
        rw [List.take_succ_cons] at hm ⊢
        have hm' : t ∈ r.take n := by
          rcases List.mem_cons.1 hm with e | h
          · exact absurd e.symm hat
          · exact h
        rw [List.filter_cons_of_pos (p := fun b => decide (b ≠ t)) hd, List.filter_cons_of_pos (p := fun b => decide (b ≠ t)) hd]
        cases n with
        | zero => simp at hm'
        | succ n => rw [List.take_succ_cons, ih n (List.nodup_cons.1 hn).2 hm']
  simp only [recentTexts]
  split
  · rename_i hm
    rw [List.take_succ_cons, hit 9 _ (recent_nodup h) hm]
  · rename_i hm
    rw [List.take_succ_cons, List.take_succ_cons, List.take_take]
    congr 1
    exact miss 9 _ fun hh => hm (List.take_subset_take_left _ (by omega) hh)

private theorem asked_with_finder (S : Spacy Nlp X) (isDigit : Char → Bool)
    (hok : ∀ nlp t x, ∃ ks, (S.chunks nlp t x).1 = .ok ks) (f : Finder Nlp) (ts : List Str) :
    ∀ (h : List Str) (memo : List (Str × List Str)) (x : X), memo.map (·.1) = (recentTexts h).take 10 →
      (findAll S isDigit ts ⟨some f, memo⟩ x).2.2 =
        (notRecent h ts).foldl (fun x t => (f.find S isDigit t x).2) x := by
  have hfo : ∀ t x, ∃ ks, (f.find S isDigit t x).1 = .ok ks := by
    intro t x
    cases f with
    | cheap => exact ⟨_, rfl⟩
    | spacy nlp => exact hok nlp t x
  induction ts with
  | nil => intros; rfl
  | cons t ts ih =>
    intro h memo x hm
    by_cases ht : t ∈ (recentTexts h).take 10
    · cases hl : memo.lookup t with
      | none => rw [lookup_none, hm] at hl; exact absurd ht hl
      | some ks =>
        have e : findNounChunks S isDigit t ⟨some f, memo⟩ x =
            (.ok ks, ⟨some f, (t, ks) :: memo.filter (fun q => q.1 ≠ t)⟩, x) := by
          simp only [findNounChunks, hl]
        simp only [findAll, e, notRecent, if_pos ht]
        refine ih (t :: h) _ x ?_
        rw [recent_take, if_pos ht, ← hm, List.map_cons, List.filter_map]
        rfl
    · have hl : memo.lookup t = none := by rw [lookup_none, hm]; exact ht
      obtain ⟨ks, hk⟩ := hfo t x
      have e : findNounChunks S isDigit t ⟨some f, memo⟩ x =
          (.ok ks, ⟨some f, ((t, ks) :: memo).take 10⟩, (f.find S isDigit t x).2) := by
        simp only [findNounChunks, hl, getChunker]
        rw [show f.find S isDigit t x = (.ok ks, (f.find S isDigit t x).2) by rw [← hk]]
      simp only [findAll, e, notRecent, if_neg ht, List.foldl_cons]
      refine ih (t :: h) _ _ ?_
      rw [recent_take, if_neg ht, ← hm, List.map_take, List.map_cons]

/-- **C89.**  Once there is a keyword finder, nothing is imported, loaded or downloaded any more, and the language model is
asked only for texts that are not among the ten texts asked for last. -/
theorem keywords_asked (S : Spacy Nlp X) (isDigit : Char → Bool)
    (hok : ∀ nlp t x, ∃ ks, (S.chunks nlp t x).1 = .ok ks) (texts : List Str) (ht : texts ≠ []) (x x' : X)
    (f : Finder Nlp) (hf : Obtained S x (.ok f) x') :
    (findAll S isDigit texts ⟨none, []⟩ x).2.2 = match f with
      | .cheap => x'
      | .spacy nlp => (notRecent [] texts).foldl (fun x t => (S.chunks nlp t x).2) x' := by
  cases texts with
  | nil => exact absurd rfl ht
  | cons t ts =>
    rw [findAll_from_start S isDigit f x x' hf, asked_with_finder S isDigit hok f (t :: ts) [] [] x' rfl]
    cases f with
    | spacy nlp => rfl
    | cheap =>
      have : ∀ (l : List Str) (x : X), l.foldl (fun x t => (Finder.find S isDigit .cheap t x).2) x = x := by
        intro l
        induction l with
        | nil => intro x; rfl
        | cons a l ih => intro x; exact ih x
      exact this _ _

/-- **C89.**  Without spaCy the built-in finder is used, and it stays in use even if spaCy is installed later. -/
theorem keywords_without_spacy (S : Spacy Nlp X) (isDigit : Char → Bool) (texts : List Str) (x x' : X)
    (h : S.importSpacy x = (.error .importError, x')) :
    (findAll S isDigit texts ⟨none, []⟩ x).1 = texts.map fun t => .ok (cheapChunker isDigit t) := by
  cases texts with
  | nil => rfl
  | cons t ts =>
    rw [findAll_from_start S isDigit .cheap x x' (.missing (.noSpacy h)), findAll_with_finder S isDigit
      (fun _ _ => .error .importError) .cheap (by intro nlp h; cases h) _ [] x' (by intro q hq; cases hq)]
    rfl

/-- A process in which the language model is missing at first and downloading it fails once; it finds the words of a text.
The state counts the calls of the model, after the number of attempts. -/
private def demoSpacy : Spacy Unit (Nat × Nat) where
  importSpacy x := (.ok (), (x.1 + 1, x.2))
  load x := (if x.1 < 4 then .error .osError else .ok (), x)
  importDownload x := (.ok (), x)
  download x := (if x.1 < 2 then .error (.other 1) else .ok (), (x.1 + 1, x.2))
  chunks _ t x := (.ok (splitChar ' ' t), (x.1, x.2 + 1))

/-- The hypotheses are met: the first call raises, the second downloads the model, the others use it; a text asked for
again is not given to the model again. -/
example : findAll demoSpacy (fun _ => false) [c!"a b", c!"a b", c!"c d", c!"a b", c!"c d"] ⟨none, []⟩ (0, 0) =
    ([.error (.other 1), .ok [c!"a", c!"b"], .ok [c!"c", c!"d"], .ok [c!"a", c!"b"], .ok [c!"c", c!"d"]],
      ⟨some (.spacy ()), [(c!"c d", [c!"c", c!"d"]), (c!"a b", [c!"a", c!"b"])]⟩, (4, 2)) := by rfl

example : Obtained demoSpacy (0, 0) (.error (.other 1)) (2, 0) ∧ Obtained demoSpacy (2, 0) (.ok (.spacy ())) (4, 0) :=
  ⟨.failed (by decide) (.noDownload rfl rfl rfl rfl), .downloaded rfl rfl rfl rfl rfl⟩

end Verif.Props
