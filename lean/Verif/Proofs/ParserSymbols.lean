import Verif.Proofs.ParserShape
import Verif.Spec.Symbols
/-! What the parser makes is made of the characters of the text. -/

namespace Verif
open Spec
variable {K : Char → Prop}

theorem Spec.Over.mono {r s : Str} (h : Over K s) (hs : r ⊆ s) : Over K r := fun c hc => h c (hs hc)

theorem Spec.Over.append {r s : Str} (hr : Over K r) (hs : Over K s) : Over K (r ++ s) := fun c hc =>
  (List.mem_append.1 hc).elim (hr c) (hs c)

/-- The result satisfies `Q` and the rest of the text is made of characters in `K`. -/
def P.Keeps {α : Type} (K : Char → Prop) (Q : α → Prop) (x : P α) : Prop := ∀ a r, x = .ok a r → Q a ∧ Over K r

namespace P.Keeps
variable {α β : Type} {Q : α → Prop} {R : β → Prop}

theorem ok {a : α} {r : Str} (h : Q a) (hr : Over K r) : P.Keeps K Q (.ok a r) := by
  rintro _ _ ⟨rfl, rfl⟩; exact ⟨h, hr⟩

theorem fail : P.Keeps K Q .fail := by rintro _ _ ⟨⟩
theorem err {e : Err} : P.Keeps K Q (.err e) := by rintro _ _ ⟨⟩
theorem fuel : P.Keeps K Q .fuel := by rintro _ _ ⟨⟩

theorem bind {x : P α} {f : α → Str → P β} (h : P.Keeps K Q x)
    (hf : ∀ a r, Q a → Over K r → P.Keeps K R (f a r)) : P.Keeps K R (x.bind f) := by
  cases x with
  | ok a r => exact hf a r (h a r rfl).1 (h a r rfl).2
  | fail => exact fail
  | err e => exact err
  | fuel => exact fuel

theorem or {x y : P α} (h : P.Keeps K Q x) (h' : P.Keeps K Q y) : P.Keeps K Q (x.or y) := by
  cases x with
  | fail => exact h'
  | ok a r => exact h
  | err e => exact h
  | fuel => exact h

theorem opt {x : P α} {s : Str} (h : P.Keeps K Q x) (hs : Over K s) :
    P.Keeps K (fun o : Option α => ∀ a ∈ o, Q a) (x.opt s) := by
  cases x with
  | ok a r => exact ok (by rintro b ⟨⟩; exact (h a r rfl).1) (h a r rfl).2
  | fail => exact ok (by rintro b ⟨⟩) hs
  | err e => exact err
  | fuel => exact fuel

theorem many {stop : Str → Bool} {p : Str → P α} (h : ∀ s, Over K s → P.Keeps K Q (p s)) :
    ∀ (n : Nat) (s : Str), Over K s → P.Keeps K (fun l : List α => ∀ a ∈ l, Q a) (many stop p n s)
  | 0, _, _ => fuel
  | n + 1, s, hs => by
    unfold Verif.many
    split
    · exact ok (by simp) hs
    · have hp := h s hs
      split
      · rename_i a r e
        obtain ⟨ha, hr⟩ := hp a r e
        refine bind (many h n r hr) fun as r' has hr' => ok ?_ hr'
        intro b hb
        rcases List.mem_cons.1 hb with rfl | hb
        · exact ha
        · exact has b hb
      · exact ok (by simp) hs
      · exact err
      · exact fuel

theorem weaken {x : P α} {Q' : α → Prop} (h : P.Keeps K Q x) (hq : ∀ a, Q a → Q' a) : P.Keeps K Q' x :=
  fun a r e => ⟨hq a (h a r e).1, (h a r e).2⟩

end P.Keeps

theorem closeComment_subset : ∀ (s r : Str), closeComment s = some r → r ⊆ s
  | [], _, h => by simp [closeComment] at h
  | c :: cs, r, h => by
    unfold closeComment at h
    split at h
    · cases h; intro x hx; simp [hx]
    · exact fun x hx => List.mem_cons_of_mem _ (closeComment_subset cs r h hx)

theorem comment_subset {s r : Str} (h : comment s = some r) : r ⊆ s := by
  have hd : s.dropWhile isWs ⊆ s := (List.dropWhile_sublist _).subset
  have ht : ∀ t : Str, t.dropWhile (· ≠ '\n') ⊆ t := fun t => (List.dropWhile_sublist _).subset
  unfold comment at h
  split at h
  · rename_i t e
    cases h
    rw [e] at hd
    exact fun x hx => hd (List.mem_cons_of_mem _ (ht _ hx))
  · rename_i t e
    cases h
    rw [e] at hd
    exact fun x hx => hd (List.mem_cons_of_mem _ (List.mem_cons_of_mem _ (ht _ hx)))
  · rename_i t e
    rw [e] at hd
    exact fun x hx => hd (List.mem_cons_of_mem _ (List.mem_cons_of_mem _ (closeComment_subset _ _ h hx)))
  · cases h

theorem skipN_subset : ∀ (n : Nat) (s : Str), skipN n s ⊆ s
  | 0, _ => fun _ h => h
  | n + 1, s => by
    unfold skipN
    split
    · exact fun _ h => h
    · rename_i r h
      exact fun x hx => comment_subset h (skipN_subset n r hx)

theorem Spec.Over.skip {s : Str} (h : Over K s) : Over K (skip s) := h.mono (skipN_subset _ _)

theorem Spec.Over.drop {s : Str} (h : Over K s) (n : Nat) : Over K (s.drop n) := h.mono (List.drop_subset _ _)

theorem Spec.Over.takeWhile {s : Str} (h : Over K s) (p : Char → Bool) : Over K (s.takeWhile p) :=
  h.mono (List.takeWhile_sublist _).subset

theorem Spec.Over.dropWhile {s : Str} (h : Over K s) (p : Char → Bool) : Over K (s.dropWhile p) :=
  h.mono (List.dropWhile_sublist _).subset

theorem Spec.Over.optWs {s : Str} (h : Over K s) : Over K (optWs s) := h.skip.dropWhile _

theorem Spec.Over.strip {s : Str} (h : Over K s) : Over K (strip s) := by
  intro c hc
  unfold Verif.strip stripP rstripP lstripP at hc
  have := (List.dropWhile_sublist _).subset (List.mem_reverse.1 hc)
  exact h.dropWhile _ c (List.mem_reverse.1 this)

theorem Spec.Over.nil : Over K [] := by intro c hc; simp at hc

theorem Spec.Over.join {sep : Str} (hs : Over K sep) : ∀ {l : List Str}, (∀ x ∈ l, Over K x) → Over K (pyJoin sep l)
  | [], _ => .nil
  | [x], h => h x (by simp)
  | x :: y :: r, h => ((h x (by simp)).append hs).append (Over.join hs (l := y :: r) fun z hz => h z (by simp [hz]))

section tokens
variable {s : Str} (h : Over K s)
include h

theorem tok_keeps (t : Str) : P.Keeps K (fun _ => True) (tok t s) := by
  unfold tok
  split
  · exact .ok trivial (h.skip.drop _)
  · exact .fail

theorem intTok_keeps : P.Keeps K (fun _ => True) (intTok s) := by
  unfold intTok
  dsimp only
  split
  · exact .fail
  · exact .ok trivial (h.skip.drop _)

theorem realTok_keeps : P.Keeps K (fun _ => True) (realTok s) := by
  unfold realTok
  dsimp only
  have hu : Over K (if ((skip s).head? == some '-' || (skip s).head? == some '+') = true then (skip s).drop 1 else skip s) := by
    split
    · exact h.skip.drop _
    · exact h.skip
  generalize (if ((skip s).head? == some '-' || (skip s).head? == some '+') = true then (skip s).drop 1 else skip s) = u at hu
  have hv := hu.drop (u.takeWhile isNum).length
  split
  · rename_i v e
    rw [e] at hv
    split
    · exact .fail
    · exact .ok trivial (fun c hc => hv c (List.mem_cons_of_mem _ (List.drop_subset _ _ hc)))
  · exact .fail

theorem nameTok_keeps : P.Keeps K (fun n => Over K n) (nameTok s) := by
  unfold nameTok
  have hk := h.skip
  split
  · exact .fail
  · rename_i c cs e
    rw [e] at hk
    split
    · refine .ok ?_ fun x hx => hk x (List.mem_cons_of_mem _ (List.drop_subset _ _ hx))
      intro x hx
      rcases List.mem_cons.1 hx with rfl | hx
      · exact hk _ (by simp)
      · exact hk x (List.mem_cons_of_mem _ ((List.takeWhile_sublist _).subset hx))
    · exact .fail

theorem samplerTok_keeps : P.Keeps K (fun m => K (methodSymbol m)) (samplerTok s) := by
  unfold samplerTok
  have hk := h.skip
  split
  · rename_i r e; rw [e] at hk; exact .ok (hk _ (by simp [methodSymbol])) fun x hx => hk x (by simp [hx])
  · rename_i r e; rw [e] at hk; exact .ok (hk _ (by simp [methodSymbol])) fun x hx => hk x (by simp [hx])
  · rename_i r e; rw [e] at hk; exact .ok (hk _ (by simp [methodSymbol])) fun x hx => hk x (by simp [hx])
  · exact .fail

theorem boundRangeTok_keeps : P.Keeps K (fun _ => True) (boundRangeTok s) := by
  unfold boundRangeTok
  refine .or ((intTok_keeps h).bind fun _ _ _ h => (tok_keeps h _).bind fun _ _ _ h =>
      (intTok_keeps h).bind fun _ _ _ h => .ok trivial h) (.or ((tok_keeps h _).bind fun _ _ _ h =>
      (intTok_keeps h).bind fun _ _ _ h => .ok trivial h) (.or ((intTok_keeps h).bind fun _ _ _ h =>
      (tok_keeps h _).bind fun _ _ _ h => .ok trivial h) ((intTok_keeps h).bind fun _ _ _ h => .ok trivial h)))

theorem sepTok_keeps : P.Keeps K (fun w => Over K w) (sepTok s) := by
  unfold sepTok
  dsimp only
  split
  · exact .fail
  · exact (tok_keeps (h.skip.drop _) _).bind fun _ _ _ hr => .ok (h.skip.takeWhile _) hr

theorem boundExpr_keeps (hc : K ',') : P.Keeps K (fun b => Over K b.2) (boundExpr s) := by
  unfold boundExpr
  refine (boundRangeTok_keeps h).bind fun b s _ h => (tok_keeps h _).bind fun _ s _ h =>
    (P.Keeps.opt (sepTok_keeps h) h.skip).bind fun sep s hs h => .ok ?_ h
  cases sep with
  | none => intro c hm; simp only [Option.getD_none, List.mem_singleton] at hm; rw [hm]; exact hc
  | some sep => exact hs sep rfl

theorem weightTok_keeps : P.Keeps K (fun _ => True) (weightTok s) := by
  unfold weightTok
  exact (P.Keeps.or (realTok_keeps h) ((intTok_keeps h).bind fun _ _ _ h => .ok trivial h)).bind fun _ _ _ h =>
    (tok_keeps h _).bind fun _ _ _ h => .ok trivial h

theorem specTok_keeps : P.Keeps K (fun w => Over K w) (specTok s) := by
  unfold specTok
  refine (tok_keeps h.optWs _).bind fun _ s _ h => ?_
  dsimp only
  split
  · exact .fail
  · exact (tok_keeps (h.skip.drop _) _).bind fun _ _ _ hr => .ok (h.skip.takeWhile _) hr

omit h in
theorem litRun_over (wrap : Str) (ex : Char → Bool) : ∀ s : Str, Over K s →
    Over K (litRun wrap ex s).1 ∧ Over K (litRun wrap ex s).2
  | [], _ => ⟨.nil, .nil⟩
  | c :: cs, h => by
    have ih := litRun_over wrap ex cs fun x hx => h x (List.mem_cons_of_mem _ hx)
    unfold litRun
    split
    · exact ⟨.nil, h⟩
    · refine ⟨?_, ih.2⟩
      intro x hx
      rcases List.mem_cons.1 hx with rfl | hx
      · exact h _ (by simp)
      · exact ih.1 x hx

omit h in
theorem litPieces_over (wrap : Str) (ex : Char → Bool) : ∀ (n : Nat) (s : Str), Over K s →
    (∀ x ∈ (litPieces wrap ex n s).1, Over K x) ∧ Over K (litPieces wrap ex n s).2
  | 0, s, h => ⟨by intro x hx; simp [litPieces] at hx, h⟩
  | n + 1, s, h => by
    have hr := litRun_over wrap ex _ h.skip
    have ih := litPieces_over wrap ex n _ hr.2
    unfold litPieces
    dsimp only
    split
    · exact ⟨by simp, h⟩
    · refine ⟨?_, ih.2⟩
      intro x hx
      rcases List.mem_cons.1 hx with rfl | hx
      · exact hr.1
      · exact ih.1 x hx

variable {A : Method → Prop}

theorem literal_keeps (hsp : K ' ') (wrap : Str) (ex : Char → Bool) :
    P.Keeps K (fun c => Made K A c ∧ ∃ l m, c = .lit l m) (literal wrap ex s) := by
  unfold literal
  have := litPieces_over wrap ex s.length s h
  dsimp only
  split
  · exact .fail
  · refine .ok ⟨.lit ((Over.join ?_ this.1)) (by simp), _, _, rfl⟩ this.2
    intro c hc
    simp only [List.mem_singleton] at hc
    rw [hc]; exact hsp

end tokens

theorem seqCmd_made {A : Method → Prop} : ∀ {cs : List Cmd}, (∀ c ∈ cs, Made K A c) → Made K A (seqCmd cs)
  | [], h => .seq h .nil (by simp)
  | [c], h => h c (by simp)
  | c :: d :: cs, h => .seq h .nil (by simp)

section
variable (hsp : K ' ') (hco : K ',') {cfg : ParserCfg} {vp : Str → P Cmd}
  (hv : ∀ s, Over K s → P.Keeps K (Made K fun m => K (methodSymbol m)) (vp s))
include hsp hco hv

omit hsp hco in
theorem optionTok_keeps {s : Str} (h : Over K s) :
    P.Keeps K (fun o => Made K (fun m => K (methodSymbol m)) o.1) (optionTok vp s) := by
  unfold optionTok
  exact (P.Keeps.opt (weightTok_keeps h.optWs) h.optWs.skip).bind fun _ r _ h =>
    (hv r h).bind fun c s hc h => .ok hc h.optWs

omit hsp hco in
theorem optionsTok_keeps {s : Str} (h : Over K s) :
    P.Keeps K (fun os => ∀ o ∈ os, Made K (fun m => K (methodSymbol m)) o.1) (optionsTok vp s) := by
  unfold optionsTok
  refine (optionTok_keeps hv h).bind fun o r ho hr =>
    (P.Keeps.many (Q := fun o : Cmd × Rat => Made K (fun m => K (methodSymbol m)) o.1)
      (fun s h => (tok_keeps h _).bind fun _ _ _ h => optionTok_keeps hv h) _ _ hr.skip).bind
        fun os r' hos hr' => .ok ?_ hr'
  intro x hx
  rcases List.mem_cons.1 hx with rfl | hx
  · exact ho
  · exact hos x hx

omit hsp in
theorem variantsTok_keeps {s : Str} (h : Over K s) :
    P.Keeps K (Made K fun m => K (methodSymbol m)) (variantsTok cfg vp s) := by
  unfold variantsTok
  refine (tok_keeps h _).bind fun _ s _ h => (P.Keeps.opt (samplerTok_keeps h.optWs) h.optWs.skip).bind
    fun m s hm h => (P.Keeps.opt (boundExpr_keeps h hco) h.skip).bind fun b s hb h =>
    (optionsTok_keeps hv h.optWs).bind fun opts s ho h => (tok_keeps h.optWs _).bind fun _ s _ h => .ok ?_ h
  unfold variantCmd
  cases b with
  | none =>
    refine .variant ho ?_ hm
    intro c hc; simp only [List.mem_singleton] at hc; rw [hc]; exact hco
  | some b => exact .variant ho (hb b rfl) hm

omit hsp hco in
theorem accessTok_keeps {s : Str} (h : Over K s) :
    P.Keeps K (fun nd => Over K nd.1 ∧ ∀ d ∈ nd.2, Made K (fun m => K (methodSymbol m)) d) (accessTok cfg vp s) := by
  unfold accessTok
  refine (tok_keeps h _).bind fun _ s _ h => (nameTok_keeps h.optWs).bind fun n s hn h =>
    (P.Keeps.opt ((tok_keeps h.optWs _).bind fun _ s _ h => hv _ h.optWs) h.optWs.skip).bind fun d s hd h =>
    (tok_keeps h.optWs _).bind fun _ s _ h => .ok ⟨hn, hd⟩ h

omit hsp hco in
theorem variableAccess_keeps {s : Str} (h : Over K s) :
    P.Keeps K (Made K fun m => K (methodSymbol m)) (variableAccess cfg vp s) := by
  unfold variableAccess
  refine (accessTok_keeps hv h).bind fun nd _ hnd h => .ok ?_ h
  obtain ⟨n, d⟩ := nd
  cases d with
  | none => exact .access
  | some d => exact .accessD (hnd.2 d rfl)

omit hsp hco in
theorem wildcardVariableAccess_keeps {s : Str} (h : Over K s) :
    P.Keeps K (Made K fun m => K (methodSymbol m)) (wildcardVariableAccess cfg vp s) := by
  unfold wildcardVariableAccess
  refine (accessTok_keeps hv h).bind fun nd _ hnd h => ?_
  obtain ⟨n, d⟩ := nd
  obtain ⟨hn, hd⟩ := hnd
  dsimp only at hn hd ⊢
  cases d with
  | none => exact .ok (.accessD (.lit hn.strip (by simp))) h
  | some d =>
    have hd := hd d rfl
    dsimp only
    by_cases ht : d.truthy = true
    · simp only [ht, if_true]
      cases hd with
      | lit h1 _ => exact .ok (.accessD (.lit h1.strip (by simp))) h
      | _ => exact .err
    · simp only [ht]
      exact .ok (.accessD (.lit hn.strip (by simp))) h

omit hsp hco in
theorem variableAssignment_keeps {s : Str} (h : Over K s) :
    P.Keeps K (Made K fun m => K (methodSymbol m)) (variableAssignment cfg vp s) := by
  unfold variableAssignment
  exact (tok_keeps h _).bind fun _ s _ h => (nameTok_keeps h.optWs).bind fun n s hn h =>
    (P.Keeps.opt (tok_keeps h.optWs _) h.optWs.skip).bind fun _ s _ h => (tok_keeps h _).bind fun _ s _ h =>
    (P.Keeps.opt (tok_keeps h _) h.skip).bind fun _ s _ h => (hv _ h.optWs).bind fun v s hv h =>
    (tok_keeps h.optWs _).bind fun _ s _ h => .ok (.assign hv) h

omit hsp hco in
theorem wrapCommand_keeps {s : Str} (h : Over K s) :
    P.Keeps K (Made K fun m => K (methodSymbol m)) (wrapCommand cfg vp s) := by
  unfold wrapCommand
  exact (tok_keeps h _).bind fun _ s _ h => (hv _ h.optWs).bind fun a s ha h =>
    (tok_keeps h.optWs _).bind fun _ s _ h => (hv _ h.optWs).bind fun b s hb h =>
    (tok_keeps h _).bind fun _ s _ h => .ok (.wrap ha hb (by simp)) h

theorem wildcardPath_keeps {s : Str} (h : Over K s) :
    P.Keeps K (Made K fun m => K (methodSymbol m)) (wildcardPath cfg vp s) := by
  unfold wildcardPath
  refine (P.Keeps.many (Q := Made K fun m => K (methodSymbol m)) (fun s h => ?_) _ _ h.skip).bind fun cs _ hcs h => ?_
  · exact .or (wildcardVariableAccess_keeps hv h) (.or (variantsTok_keeps hco hv h)
      (.or ((literal_keeps h hsp _ _).weaken fun _ h => h.1) ((literal_keeps h hsp _ _).weaken fun _ h => h.1)))
  · split
    · exact .fail
    · exact .ok (seqCmd_made hcs) h

variable {pv : Str → P Cmd} (hp : ∀ s, Over K s → P.Keeps K (Made K fun m => K (methodSymbol m)) (pv s))
include hp

omit hsp hco hv in
theorem parseSpec_keeps : ∀ ps : List Str, (∀ p ∈ ps, Over K p) →
    P.Keeps K (fun l : List (Str × Cmd) => ∀ p ∈ l, Made K (fun m => K (methodSymbol m)) p.2) (parseSpec pv ps)
  | [], _ => .ok (by simp) .nil
  | p :: ps, h => by
    unfold parseSpec
    refine (hp _ ((h p (by simp)).drop _).strip).bind fun c _ hc _ =>
      (parseSpec_keeps ps fun q hq => h q (by simp [hq])).bind fun l _ hl _ => .ok ?_ .nil
    intro x hx
    rcases List.mem_cons.1 hx with rfl | hx
    · exact hc
    · exact hl x hx

omit hsp hco hv hp in
theorem splitAt1_over (p : Char → Bool) : ∀ s : Str, Over K s → ∀ x ∈ splitAt1 p s, Over K x := by
  intro s
  induction s with
  | nil =>
    intro _ x hx
    have : x = [] := by simpa [splitAt1] using hx
    rw [this]; exact .nil
  | cons c cs ih =>
    intro h x hx
    have ih := ih fun y hy => h y (List.mem_cons_of_mem _ hy)
    unfold splitAt1 at hx
    split at hx
    · rcases List.mem_cons.1 hx with rfl | hx
      · exact .nil
      · exact ih x hx
    · revert hx
      cases hq : splitAt1 p cs with
      | nil =>
        intro hx
        have : x = [c] := by simpa [consHead] using hx
        rw [this]
        intro y hy
        have : y = c := by simpa using hy
        rw [this]; exact h _ (by simp)
      | cons y ys =>
        intro hx
        rw [hq] at ih
        rcases List.mem_cons.1 hx with rfl | hx
        · intro z hz
          rcases List.mem_cons.1 hz with rfl | hz
          · exact h _ (by simp)
          · exact ih y (by simp) z hz
        · exact ih x (by simp [hx])

omit hsp hco hv hp in
theorem wildcardCmd_made {A : Method → Prop} {m : Option Method} {c : Cmd} {vars : List (Str × Cmd)}
    (hc : Made K A c) (hvars : ∀ p ∈ vars, Made K A p.2) (hm : ∀ x ∈ m, A x) :
    Made K A (wildcardCmd m c vars) := by
  unfold wildcardCmd
  split
  · cases hc with
    | lit h _ => exact .named h hvars hm
  · exact .path hc hvars hm

theorem wildcardTok_keeps {s : Str} (h : Over K s) :
    P.Keeps K (Made K fun m => K (methodSymbol m)) (wildcardTok cfg vp pv s) := by
  unfold wildcardTok
  refine (tok_keeps h _).bind fun _ s _ h => (P.Keeps.opt (samplerTok_keeps h) h.skip).bind fun m s hm h =>
    (wildcardPath_keeps hsp hco hv h).bind fun path s hpath h =>
    (P.Keeps.opt (specTok_keeps h) h.skip).bind fun spec s hspec h => (tok_keeps h _).bind fun _ s _ h => ?_
  cases spec with
  | none => exact .ok (wildcardCmd_made hpath (by simp) hm) h
  | some w =>
    exact (parseSpec_keeps hp _ (splitAt1_over _ _ (hspec w rfl))).bind fun vars _ hvars _ => P.Keeps.ok
      (wildcardCmd_made hpath (dict_update_all _ _ (by simp) hvars) hm) h

theorem variantChunk_keeps {s : Str} (h : Over K s) :
    P.Keeps K (Made K fun m => K (methodSymbol m)) (variantChunk cfg vp pv s) :=
  .or (variableAccess_keeps hv h) (.or (wrapCommand_keeps hv h) (.or (variantsTok_keeps hco hv h)
    (.or (wildcardTok_keeps hsp hco hv hp h) ((literal_keeps h hsp _ _).weaken fun _ h => h.1))))

theorem chunk_keeps {s : Str} (h : Over K s) :
    P.Keeps K (Made K fun m => K (methodSymbol m)) (chunk cfg vp pv s) :=
  .or (variableAssignment_keeps hv h) (.or (variableAccess_keeps hv h) (.or (wrapCommand_keeps hv h)
    (.or (variantsTok_keeps hco hv h) (.or (wildcardTok_keeps hsp hco hv hp h)
      ((literal_keeps h hsp _ _).weaken fun _ h => h.1)))))

theorem variantPrompt_keeps {s : Str} (h : Over K s) :
    P.Keeps K (Made K fun m => K (methodSymbol m)) (variantPrompt cfg vp pv s) := by
  unfold variantPrompt
  exact (P.Keeps.many (fun s h => variantChunk_keeps hsp hco hv hp h) _ _ h.skip).bind fun cs _ hc h =>
    .ok (seqCmd_made hc) h

theorem parseTok_keeps {s : Str} (h : Over K s) :
    P.Keeps K (Made K fun m => K (methodSymbol m)) (parseTok cfg vp pv s) := by
  unfold parseTok promptTok
  split
  · exact .ok (.lit h (by simp)) .nil
  · refine (P.Keeps.many (fun s h => chunk_keeps hsp hco hv hp h) _ _ h.skip).bind fun cs _ hc h => ?_
    split
    · exact .ok (seqCmd_made hc) .nil
    · exact .fail

end

theorem parsers_keeps (hsp : K ' ') (hco : K ',') (cfg : ParserCfg) : ∀ (n : Nat) (s : Str), Over K s →
    P.Keeps K (Made K fun m => K (methodSymbol m)) ((parsers cfg n).1 s) ∧
      P.Keeps K (Made K fun m => K (methodSymbol m)) ((parsers cfg n).2 s)
  | 0, _, _ => ⟨.fuel, .fuel⟩
  | n + 1, s, h =>
    have h1 := fun s h => (parsers_keeps hsp hco cfg n s h).1
    have h2 := fun s h => (parsers_keeps hsp hco cfg n s h).2
    ⟨variantPrompt_keeps hsp hco h1 h2 h, parseTok_keeps hsp hco h1 h2 h⟩

theorem expandTabs_over (hsp : K ' ') : ∀ (s : Str) (col : Nat), Over K s → Over K (expandTabs col s)
  | [], _, _ => .nil
  | c :: cs, col, h => by
    have ht : Over K cs := fun x hx => h x (List.mem_cons_of_mem _ hx)
    have hc : K c := h c (by simp)
    have cons : ∀ t, Over K t → Over K (c :: t) := by
      intro t h x hx
      rcases List.mem_cons.1 hx with rfl | hx
      · exact hc
      · exact h x hx
    unfold expandTabs
    split
    · refine Over.append ?_ (expandTabs_over hsp cs 0 ht)
      intro x hx
      rw [List.eq_of_mem_replicate hx]; exact hsp
    · split
      · exact cons _ (expandTabs_over hsp cs 0 ht)
      · exact cons _ (expandTabs_over hsp cs _ ht)

theorem parse_made {cfg : ParserCfg} {s : Str} {c : Cmd} (hsp : K ' ') (hco : K ',') (hs : Over K s)
    (h : parse cfg s = .ok c) : Made K (fun m => K (methodSymbol m)) c := by
  unfold parse parseAt at h
  split at h
  · rename_i c' r e
    simp only [Option.getD_some, Except.ok.injEq] at h
    subst h
    exact ((parsers_keeps hsp hco cfg _ _ (expandTabs_over hsp s 0 hs)).2 _ _ e).1
  all_goals cases h

end Verif
