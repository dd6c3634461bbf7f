import Verif.Model.Parser
/-!
# The parser always answers, and the depth it is given does not matter

`Same k x y`: two runs of a grammar element give the same answer, and what is left of the text is at
most `k` long.
-/

namespace Verif

/-- The answer is there, and at most `k` characters are left. -/
def P.Within {α : Type} (k : Nat) : P α → Prop
  | .ok _ r => r.length ≤ k
  | .fuel => False
  | _ => True

/-- Two runs give the same answer, and at most `k` characters are left. -/
def Same {α : Type} (k : Nat) (x y : P α) : Prop := x = y ∧ x.Within k

theorem Same.bind {α β : Type} {k l : Nat} {x y : P α} {f g : α → Str → P β}
    (h : Same k x y) (hf : ∀ a r, r.length ≤ k → Same l (f a r) (g a r)) :
    Same l (x.bind f) (y.bind g) := by
  obtain ⟨rfl, h⟩ := h
  cases x with
  | ok a r => exact hf a r h
  | fail => exact ⟨rfl, trivial⟩
  | err e => exact ⟨rfl, trivial⟩
  | fuel => exact h.elim

theorem Same.or {α : Type} {k : Nat} {x y x' y' : P α}
    (h : Same k x y) (h' : Same k x' y') : Same k (x.or x') (y.or y') := by
  obtain ⟨rfl, h⟩ := h
  cases x with
  | ok a r => exact ⟨rfl, h⟩
  | fail => exact h'
  | err e => exact ⟨rfl, trivial⟩
  | fuel => exact h.elim

theorem Same.opt {α : Type} {k : Nat} {x y : P α} {s : Str}
    (h : Same k x y) (hs : s.length ≤ k) : Same k (x.opt s) (y.opt s) := by
  obtain ⟨rfl, h⟩ := h
  cases x with
  | ok a r => exact ⟨rfl, h⟩
  | fail => exact ⟨rfl, hs⟩
  | err e => exact ⟨rfl, trivial⟩
  | fuel => exact h.elim

theorem Same.mono {α : Type} {k l : Nat} {x y : P α} (h : Same k x y) (hl : k ≤ l) : Same l x y := by
  obtain ⟨rfl, h⟩ := h
  refine ⟨rfl, ?_⟩
  cases x with
  | ok a r => exact Nat.le_trans h hl
  | fail => trivial
  | err e => trivial
  | fuel => exact h

theorem Same.ok {α : Type} {k : Nat} {a : α} {r : Str} (h : r.length ≤ k) :
    Same k (P.ok a r) (P.ok a r) := ⟨rfl, h⟩

theorem Same.fail {α : Type} {k : Nat} : Same k (P.fail : P α) P.fail := ⟨rfl, trivial⟩

/-- Repetition: if every match takes something away, one more step than characters is enough. -/
theorem Same.many {α : Type} {k : Nat} {stop : Str → Bool} {p q : Str → P α}
    (h : ∀ s, s.length ≤ k → Same (s.length - 1) (p s) (q s))
    (h0 : ∀ s a r, p s = .ok a r → s ≠ []) :
    ∀ (n : Nat) (s : Str), s.length ≤ k → s.length < n →
      Same s.length (many stop p n s) (many stop q n s) := by
  intro n
  induction n with
  | zero => intro s _ hn; omega
  | succ n ih =>
    intro s hk hn
    unfold Verif.many
    by_cases hs : stop s
    · rw [if_pos hs, if_pos hs]; exact .ok (Nat.le_refl _)
    · rw [if_neg hs, if_neg hs]
      obtain ⟨he, hw⟩ := h s hk
      rw [← he]
      cases hp : p s with
      | ok a r =>
        rw [hp] at hw
        have hne := h0 s a r hp
        have hl : 0 < s.length := List.length_pos_iff.2 hne
        have hr : r.length < s.length := by
          have : r.length ≤ s.length - 1 := hw
          omega
        exact (ih r (by omega) (by omega)).bind fun as r' hr' => .ok (by omega)
      | fail => exact .ok (Nat.le_refl _)
      | err e => exact ⟨rfl, trivial⟩
      | fuel => rw [hp] at hw; exact hw.elim

/-- Configurations whose opening marks are not empty. -/
structure ParserCfg.Usable (cfg : ParserCfg) : Prop where
  variantNe : cfg.variantStart ≠ []
  wildcardNe : cfg.wildcardWrap ≠ []
  variableNe : cfg.variableStart ≠ []
  wrapNe : cfg.wrapStart ≠ []

/-! ## Lengths -/

theorem closeComment_length : ∀ (s r : Str), closeComment s = some r → r.length < s.length
  | [], _, h => by simp [closeComment] at h
  | c :: cs, r, h => by
    unfold closeComment at h
    split at h
    · simp only [Option.some.injEq] at h; subst h; simp only [List.length_cons]; omega
    · have := closeComment_length cs r h
      simp only [List.length_cons]; omega

theorem dropWhile_length {α : Type} (p : α → Bool) (l : List α) : (l.dropWhile p).length ≤ l.length :=
  (List.dropWhile_suffix p).length_le

theorem comment_length {s r : Str} (h : comment s = some r) : r.length < s.length := by
  have hd := dropWhile_length isWs s
  unfold comment at h
  split at h
  · rename_i t ht
    rw [ht] at hd
    simp only [Option.some.injEq] at h; subst h
    have := dropWhile_length (· ≠ '\n') t
    simp only [List.length_cons] at hd; omega
  · rename_i t ht
    rw [ht] at hd
    simp only [Option.some.injEq] at h; subst h
    have := dropWhile_length (· ≠ '\n') t
    simp only [List.length_cons] at hd; omega
  · rename_i t ht
    rw [ht] at hd
    have := closeComment_length _ _ h
    simp only [List.length_cons] at hd; omega
  · cases h

theorem skipN_length : ∀ (n : Nat) (s : Str), (skipN n s).length ≤ s.length
  | 0, _ => Nat.le_refl _
  | n + 1, s => by
    unfold skipN
    cases h : comment s with
    | none => exact Nat.le_refl _
    | some r =>
      have := comment_length h
      have := skipN_length n r
      dsimp only; omega

theorem skip_length (s : Str) : (skip s).length ≤ s.length := skipN_length _ _

theorem optWs_length (s : Str) : (optWs s).length ≤ s.length :=
  Nat.le_trans (dropWhile_length _ _) (skip_length s)

/-- A token that matches takes its length away. -/
theorem tok_same (t s : Str) : Same (s.length - t.length) (tok t s) (tok t s) := by
  refine ⟨rfl, ?_⟩
  unfold tok
  split
  · have := skip_length s
    show ((skip s).drop t.length).length ≤ _
    rw [List.length_drop]; omega
  · trivial

theorem tok_nil_same (s : Str) : ∀ t : Str, Same s.length (tok t s) (tok t s) := fun t =>
  (tok_same t s).mono (by omega)

theorem intTok_same (s : Str) : Same s.length (intTok s) (intTok s) := by
  refine ⟨rfl, ?_⟩
  unfold intTok
  have := skip_length s
  dsimp only
  split
  · trivial
  · show (List.drop _ _).length ≤ _
    rw [List.length_drop]; omega

theorem realTok_same (s : Str) : Same s.length (realTok s) (realTok s) := by
  refine ⟨rfl, ?_⟩
  unfold realTok
  have hs := skip_length s
  have h0 : (if (List.head? (skip s) == some '-' || List.head? (skip s) == some '+') = true
      then List.drop 1 (skip s) else skip s).length ≤ s.length := by
    split
    · rw [List.length_drop]; omega
    · omega
  dsimp only
  generalize (if (List.head? (skip s) == some '-' || List.head? (skip s) == some '+') = true
      then List.drop 1 (skip s) else skip s) = u at h0
  split
  · rename_i v hv
    have h1 : (('.' :: v : Str)).length ≤ s.length := by
      rw [← hv, List.length_drop]; omega
    split
    · trivial
    · show (List.drop _ _).length ≤ _
      rw [List.length_drop]
      simp only [List.length_cons] at h1
      omega
  · trivial

theorem nameTok_same (s : Str) : Same s.length (nameTok s) (nameTok s) := by
  refine ⟨rfl, ?_⟩
  unfold nameTok
  have hs := skip_length s
  split
  · trivial
  · rename_i c cs h
    rw [h] at hs
    split
    · show (List.drop _ _).length ≤ _
      rw [List.length_drop]
      simp only [List.length_cons] at hs; omega
    · trivial

theorem samplerTok_same (s : Str) : Same s.length (samplerTok s) (samplerTok s) := by
  refine ⟨rfl, ?_⟩
  unfold samplerTok
  have hs := skip_length s
  split
  all_goals first
    | (rename_i h; rw [h] at hs; show List.length _ ≤ _; simp only [List.length_cons] at hs; omega)
    | trivial

theorem litRun_length (w : Str) (ex : Char → Bool) :
    ∀ s : Str, (litRun w ex s).1.length + (litRun w ex s).2.length = s.length
  | [] => rfl
  | c :: cs => by
    unfold litRun
    split
    · simp
    · have := litRun_length w ex cs
      simp only [List.length_cons]; omega

theorem litPieces_length (w : Str) (ex : Char → Bool) : ∀ (n : Nat) (s : Str),
    (litPieces w ex n s).2.length ≤ s.length ∧
      ((litPieces w ex n s).1 ≠ [] → (litPieces w ex n s).2.length < s.length)
  | 0, s => by simp [litPieces]
  | n + 1, s => by
    unfold litPieces
    have h1 := skip_length s
    have h2 := litRun_length w ex (skip s)
    by_cases he : (litRun w ex (skip s)).1.isEmpty
    · simp [he]
    · have h3 : 0 < (litRun w ex (skip s)).1.length := by
        rw [List.length_pos_iff]; simpa using he
      have h4 := (litPieces_length w ex n (litRun w ex (skip s)).2).1
      simp only [he, Bool.false_eq_true, if_false]
      exact ⟨by omega, fun _ => by omega⟩

theorem literal_same (w : Str) (ex : Char → Bool) (s : Str) :
    Same (s.length - 1) (literal w ex s) (literal w ex s) := by
  refine ⟨rfl, ?_⟩
  unfold literal
  dsimp only
  have h := litPieces_length w ex s.length s
  split
  · trivial
  · rename_i he
    have := h.2 (by simpa using he)
    show List.length _ ≤ _
    omega

theorem boundRangeTok_same (s : Str) : Same s.length (boundRangeTok s) (boundRangeTok s) := by
  unfold boundRangeTok
  refine Same.or ?_ (Same.or ?_ (Same.or ?_ ?_))
  · exact (intTok_same s).bind fun _ r h => (tok_nil_same r _).bind fun _ r' h' =>
      (intTok_same r').bind fun _ r'' h'' => .ok (by omega)
  · exact (tok_nil_same s _).bind fun _ r h => (intTok_same r).bind fun _ r' h' => .ok (by omega)
  · exact (intTok_same s).bind fun _ r h => (tok_nil_same r _).bind fun _ r' h' => .ok (by omega)
  · exact (intTok_same s).bind fun _ r h => .ok (by omega)

theorem sepTok_same (s : Str) : Same s.length (sepTok s) (sepTok s) := by
  unfold sepTok
  have hs := skip_length s
  dsimp only
  split
  · exact .fail
  · refine (tok_nil_same _ _).bind fun _ r h => .ok ?_
    rw [List.length_drop] at h; omega

theorem boundExpr_same (s : Str) : Same s.length (boundExpr s) (boundExpr s) := by
  unfold boundExpr
  refine (boundRangeTok_same s).bind fun _ r h => (tok_nil_same r _).bind fun _ r' h' => ?_
  have := skip_length r'
  exact ((sepTok_same r').opt (by omega)).bind fun _ r'' h'' => .ok (by omega)

theorem weightTok_same (s : Str) : Same s.length (weightTok s) (weightTok s) := by
  unfold weightTok
  exact ((realTok_same s).or ((intTok_same s).bind fun _ r h => .ok (by omega))).bind fun _ r h =>
    (tok_nil_same r _).bind fun _ r' h' => .ok (by omega)

theorem specTok_same (s : Str) : Same s.length (specTok s) (specTok s) := by
  unfold specTok
  have h0 := optWs_length s
  refine (tok_nil_same (optWs s) _).bind fun _ r h => ?_
  have := skip_length r
  dsimp only
  split
  · exact .fail
  · refine (tok_nil_same _ _).bind fun _ r' h' => .ok ?_
    rw [List.length_drop] at h'; omega

/-! ## Elements that call others -/

section
variable {vp vq pv pw : Str → P Cmd} {k : Nat}
  (hv : ∀ s : Str, s.length < k → Same s.length (vp s) (vq s))
include hv

theorem optionTok_same {s : Str} (hs : s.length < k) :
    Same s.length (optionTok vp s) (optionTok vq s) := by
  unfold optionTok
  have h1 := optWs_length s
  have h2 := skip_length (optWs s)
  dsimp only
  refine ((weightTok_same (optWs s)).opt (by omega)).bind fun _ r h => (hv r (by omega)).bind
    fun _ r' h' => .ok ?_
  have := optWs_length r'
  omega

theorem optionsTok_same {s : Str} (hs : s.length < k) :
    Same s.length (optionsTok vp s) (optionsTok vq s) := by
  unfold optionsTok
  refine (optionTok_same hv hs).bind fun _ r h => ?_
  have h1 := skip_length r
  refine (Same.mono (Same.many (k := r.length) ?_ ?_ _ _ h1 (by omega)) h1).bind fun _ r' h' =>
    .ok (by omega)
  · intro s hs
    refine (tok_same _ _).bind fun _ r' h' => ?_
    have h2 : c!"|".length = 1 := rfl
    rw [h2] at h'
    exact (optionTok_same hv (by omega)).mono (by omega)
  · rintro s a r' hp rfl
    exact absurd hp (by simp [tok, skip, skipN, startsWith, P.bind])

theorem variantsTok_same {cfg : ParserCfg} (hc : cfg.variantStart ≠ []) {s : Str} (hs : s.length ≤ k) :
    Same (s.length - 1) (variantsTok cfg vp s) (variantsTok cfg vq s) := by
  unfold variantsTok
  have hc' := List.length_pos_iff.2 hc
  by_cases h0 : s.length = 0
  · rw [List.length_eq_zero_iff] at h0
    subst h0
    have : tok cfg.variantStart [] = .fail := by
      cases h : cfg.variantStart with
      | nil => exact absurd h hc
      | cons a b => simp [tok, skip, skipN, startsWith]
    rw [this]
    exact .fail
  refine (tok_same _ _).bind fun _ r h => ?_
  have h1 := optWs_length r
  have h2 := skip_length (optWs r)
  dsimp only
  refine ((samplerTok_same _).opt h2).bind fun _ r1 h3 => ?_
  have h4 := skip_length r1
  refine ((boundExpr_same _).opt h4).bind fun _ r2 h5 => ?_
  have h6 := optWs_length r2
  refine (optionsTok_same hv (by omega)).bind fun _ r3 h7 => ?_
  have h8 := optWs_length r3
  exact (tok_nil_same _ _).bind fun _ r4 h9 => .ok (by omega)

theorem accessTok_same {cfg : ParserCfg} (hc : cfg.variableStart ≠ []) {s : Str} (hs : s.length ≤ k) :
    Same (s.length - 1) (accessTok cfg vp s) (accessTok cfg vq s) := by
  unfold accessTok
  have hc' := List.length_pos_iff.2 hc
  by_cases h0 : s.length = 0
  · rw [List.length_eq_zero_iff] at h0
    subst h0
    have : tok cfg.variableStart [] = .fail := by
      cases h : cfg.variableStart with
      | nil => exact absurd h hc
      | cons a b => simp [tok, skip, skipN, startsWith]
    rw [this]
    exact .fail
  refine (tok_same _ _).bind fun _ r h => ?_
  have h1 := optWs_length r
  refine (nameTok_same _).bind fun _ r1 h3 => ?_
  have h4 := optWs_length r1
  have h5 := skip_length (optWs r1)
  dsimp only
  refine (Same.opt (k := (optWs r1).length) ((tok_nil_same _ _).bind fun _ r2 h6 => ?_) h5).bind
    fun _ r3 h7 => ?_
  · have h7 := optWs_length r2
    exact (hv _ (by omega)).mono (by omega)
  · have h8 := optWs_length r3
    exact (tok_nil_same _ _).bind fun _ r4 h9 => .ok (by omega)

theorem variableAccess_same {cfg : ParserCfg} (hc : cfg.variableStart ≠ []) {s : Str}
    (hs : s.length ≤ k) :
    Same (s.length - 1) (variableAccess cfg vp s) (variableAccess cfg vq s) := by
  unfold variableAccess
  exact (accessTok_same hv hc hs).bind fun _ r h => .ok h

theorem wildcardVariableAccess_same {cfg : ParserCfg} (hc : cfg.variableStart ≠ []) {s : Str}
    (hs : s.length ≤ k) :
    Same (s.length - 1) (wildcardVariableAccess cfg vp s) (wildcardVariableAccess cfg vq s) := by
  unfold wildcardVariableAccess
  refine (accessTok_same hv hc hs).bind fun nd r h => ?_
  split
  · exact .ok h
  · exact ⟨rfl, trivial⟩

theorem variableAssignment_same {cfg : ParserCfg} (hc : cfg.variableStart ≠ []) {s : Str}
    (hs : s.length ≤ k) :
    Same (s.length - 1) (variableAssignment cfg vp s) (variableAssignment cfg vq s) := by
  unfold variableAssignment
  have hc' := List.length_pos_iff.2 hc
  by_cases h0 : s.length = 0
  · rw [List.length_eq_zero_iff] at h0
    subst h0
    have : tok cfg.variableStart [] = .fail := by
      cases h : cfg.variableStart with
      | nil => exact absurd h hc
      | cons a b => simp [tok, skip, skipN, startsWith]
    rw [this]
    exact .fail
  refine (tok_same _ _).bind fun _ r h => ?_
  have h1 := optWs_length r
  refine (nameTok_same _).bind fun _ r1 h3 => ?_
  have h4 := optWs_length r1
  have h5 := skip_length (optWs r1)
  dsimp only
  refine ((tok_nil_same _ _).opt h5).bind fun _ r2 h6 => ?_
  refine (tok_nil_same _ _).bind fun _ r3 h7 => ?_
  have h8 := skip_length r3
  refine ((tok_nil_same _ _).opt h8).bind fun _ r4 h9 => ?_
  have h10 := optWs_length r4
  refine (hv _ (by omega)).bind fun _ r5 h11 => ?_
  have h12 := optWs_length r5
  exact (tok_nil_same _ _).bind fun _ r6 h13 => .ok (by omega)

theorem wrapCommand_same {cfg : ParserCfg} (hc : cfg.wrapStart ≠ []) {s : Str} (hs : s.length ≤ k) :
    Same (s.length - 1) (wrapCommand cfg vp s) (wrapCommand cfg vq s) := by
  unfold wrapCommand
  have hc' := List.length_pos_iff.2 hc
  by_cases h0 : s.length = 0
  · rw [List.length_eq_zero_iff] at h0
    subst h0
    have : tok cfg.wrapStart [] = .fail := by
      cases h : cfg.wrapStart with
      | nil => exact absurd h hc
      | cons a b => simp [tok, skip, skipN, startsWith]
    rw [this]
    exact .fail
  refine (tok_same _ _).bind fun _ r h => ?_
  have h1 := optWs_length r
  refine (hv _ (by omega)).bind fun _ r1 h3 => ?_
  have h4 := optWs_length r1
  refine (tok_nil_same _ _).bind fun _ r3 h7 => ?_
  have h8 := optWs_length r3
  refine (hv _ (by omega)).bind fun _ r5 h11 => ?_
  exact (tok_nil_same _ _).bind fun _ r6 h13 => .ok (by omega)

end

theorem tok_nil_fail {t : Str} (h : t ≠ []) : tok t [] = .fail := by
  cases h : t with
  | nil => contradiction
  | cons a b => simp [tok, skip, skipN, startsWith]

theorem literal_nil (w : Str) (ex : Char → Bool) : literal w ex [] = .fail := by
  simp [literal, litPieces]

theorem accessTok_nil {cfg : ParserCfg} (hc : cfg.variableStart ≠ []) (vp : Str → P Cmd) :
    accessTok cfg vp [] = .fail := by simp [accessTok, tok_nil_fail hc, P.bind]

theorem variantsTok_nil {cfg : ParserCfg} (hc : cfg.variantStart ≠ []) (vp : Str → P Cmd) :
    variantsTok cfg vp [] = .fail := by simp [variantsTok, tok_nil_fail hc, P.bind]

theorem wildcardTok_nil {cfg : ParserCfg} (hc : cfg.wildcardWrap ≠ []) (vp pv : Str → P Cmd) :
    wildcardTok cfg vp pv [] = .fail := by simp [wildcardTok, tok_nil_fail hc, P.bind]

theorem variantChunk_nil {cfg : ParserCfg} (hc : cfg.Usable) (vp pv : Str → P Cmd) :
    variantChunk cfg vp pv [] = .fail := by
  simp [variantChunk, variableAccess, wrapCommand, accessTok_nil hc.variableNe,
    variantsTok_nil hc.variantNe, wildcardTok_nil hc.wildcardNe, literal_nil, tok_nil_fail hc.wrapNe, P.bind,
    P.or]

theorem chunk_nil {cfg : ParserCfg} (hc : cfg.Usable) (vp pv : Str → P Cmd) :
    chunk cfg vp pv [] = .fail := by
  simp [chunk, variableAccess, variableAssignment, wrapCommand, accessTok_nil hc.variableNe,
    variantsTok_nil hc.variantNe, wildcardTok_nil hc.wildcardNe, literal_nil, tok_nil_fail hc.wrapNe,
    tok_nil_fail hc.variableNe, P.bind, P.or]

theorem parseSpec_same {pv pw : Str → P Cmd} {l : Nat} : ∀ (ps : List Str),
    (∀ p ∈ ps, ∀ key : Nat, Same l (pv (strip (p.drop key))) (pw (strip (p.drop key)))) →
    Same l (parseSpec pv ps) (parseSpec pw ps)
  | [], _ => .ok (Nat.zero_le _)
  | p :: ps, h => by
    unfold parseSpec
    dsimp only
    refine (h p List.mem_cons_self _).bind fun _ _ _ => ?_
    exact (parseSpec_same ps fun q hq => h q (List.mem_cons_of_mem _ hq)).bind fun _ _ _ =>
      .ok (Nat.zero_le _)

theorem splitAt1_length {p : Char → Bool} : ∀ (s : Str), ∀ w ∈ splitAt1 p s, w.length ≤ s.length
  | [], w, h => by simp [splitAt1] at h; simp [h]
  | c :: cs, w, h => by
    unfold splitAt1 at h
    split at h
    · rcases List.mem_cons.1 h with rfl | h
      · simp
      · have := splitAt1_length cs w h
        simp only [List.length_cons]; omega
    · cases hs : splitAt1 p cs with
      | nil => rw [hs] at h; simp [consHead] at h; simp [h]
      | cons x xs =>
        rw [hs] at h
        simp only [consHead, List.mem_cons] at h
        rcases h with rfl | h
        · have := splitAt1_length (p := p) cs x (by rw [hs]; exact List.mem_cons_self)
          simp only [List.length_cons]; omega
        · have := splitAt1_length (p := p) cs w (by rw [hs]; exact List.mem_cons_of_mem _ h)
          simp only [List.length_cons]; omega

theorem strip_length (s : Str) : (strip s).length ≤ s.length := by
  unfold strip stripP rstripP lstripP
  rw [List.length_reverse]
  refine Nat.le_trans (dropWhile_length _ _) ?_
  rw [List.length_reverse]
  exact dropWhile_length _ _

section
variable {cfg : ParserCfg} (hc : cfg.Usable) {vp vq pv pw : Str → P Cmd} {k : Nat}
  (hv : ∀ s : Str, s.length < k → Same s.length (vp s) (vq s))
include hc hv

theorem wildcardPath_same {s : Str} (hs : s.length < k) :
    Same s.length (wildcardPath cfg vp s) (wildcardPath cfg vq s) := by
  unfold wildcardPath
  have h1 := skip_length s
  refine (Same.mono (Same.many (k := s.length) ?_ ?_ _ _ h1 (by omega)) h1).bind fun cs r h => ?_
  · intro s hs
    exact (wildcardVariableAccess_same hv hc.variableNe (by omega)).or
      ((variantsTok_same hv hc.variantNe (by omega)).or ((literal_same _ _ _).or (literal_same _ _ _)))
  · rintro s a r' hp rfl
    exact absurd hp (by simp [wildcardVariableAccess, accessTok_nil hc.variableNe,
      variantsTok_nil hc.variantNe, literal_nil, P.bind, P.or])
  · split
    · exact .fail
    · exact .ok h

theorem wildcardTok_same (hp : ∀ s : Str, s.length < k → Same 0 (pv s) (pw s)) {s : Str}
    (hs : s.length ≤ k) :
    Same (s.length - 1) (wildcardTok cfg vp pv s) (wildcardTok cfg vq pw s) := by
  by_cases h0 : s.length = 0
  · rw [List.length_eq_zero_iff] at h0
    subst h0
    rw [wildcardTok_nil hc.wildcardNe, wildcardTok_nil hc.wildcardNe]
    exact .fail
  unfold wildcardTok
  have hc' := List.length_pos_iff.2 hc.wildcardNe
  refine (tok_same _ _).bind fun _ r h => ?_
  have h1 := skip_length r
  refine ((samplerTok_same _).opt h1).bind fun _ r1 h3 => ?_
  refine (wildcardPath_same hc hv (by omega)).bind fun _ r2 h5 => ?_
  have h6 := skip_length r2
  have hspec : ∀ w r3, specTok r2 = .ok w r3 → w.length ≤ r2.length := by
    intro w r3 he
    unfold specTok at he
    have hh := optWs_length r2
    cases ht : tok c!"(" (optWs r2) with
    | ok u q =>
      have h7 := (tok_nil_same (optWs r2) c!"(").2
      rw [ht] at h7 he
      have h7 : q.length ≤ (optWs r2).length := h7
      simp only [P.bind] at he
      have h8 := skip_length q
      split at he
      · cases he
      · cases ht2 : tok c!")" ((skip q).drop ((skip q).takeWhile (· ≠ ')')).length) with
        | ok u2 q2 =>
          rw [ht2] at he
          simp only [P.ok.injEq] at he
          rw [← he.1]
          have : ((skip q).takeWhile (· ≠ ')')).length ≤ (skip q).length :=
            (List.takeWhile_prefix _).length_le
          omega
        | fail => rw [ht2] at he; cases he
        | err e => rw [ht2] at he; cases he
        | fuel => rw [ht2] at he; cases he
    | fail => rw [ht] at he; cases he
    | err e => rw [ht] at he; cases he
    | fuel => rw [ht] at he; cases he
  have key : ∀ (spec : Option Str) (r3 : Str), r3.length ≤ r2.length →
      (∀ w, spec = some w → w.length ≤ r2.length) → ∀ (path : Cmd) (m : Option Method),
      Same (s.length - 1)
        ((tok cfg.wildcardWrap r3).bind fun _ s => match spec with
          | none => P.ok (wildcardCmd m path []) s
          | some w => (parseSpec pv (splitChar ',' w)).bind fun vars _ =>
              .ok (wildcardCmd m path (Dict.update [] vars)) s)
        ((tok cfg.wildcardWrap r3).bind fun _ s => match spec with
          | none => P.ok (wildcardCmd m path []) s
          | some w => (parseSpec pw (splitChar ',' w)).bind fun vars _ =>
              .ok (wildcardCmd m path (Dict.update [] vars)) s) := by
    intro spec r3 hr3 hw path m
    refine (tok_nil_same _ _).bind fun _ r4 h7 => ?_
    cases spec with
    | none => exact .ok (by omega)
    | some w =>
      dsimp only
      refine (parseSpec_same (l := 0) _ ?_).bind fun _ _ _ => .ok (by omega)
      intro p hp' key
      have h8 := splitAt1_length w p hp'
      have h9 := strip_length (p.drop key)
      rw [List.length_drop] at h9
      have := hw w rfl
      exact hp _ (by omega)
  cases hsp : specTok r2 with
  | ok w r3 =>
    have h7 := (specTok_same r2).2
    rw [hsp] at h7
    have h7 : r3.length ≤ r2.length := h7
    simp only [P.opt, P.bind]
    exact key (some w) r3 h7 (fun w' e => by cases e; exact hspec w r3 hsp) _ _
  | fail =>
    simp only [P.opt, P.bind]
    exact key none _ h6 (fun w' e => by cases e) _ _
  | err e => exact ⟨rfl, trivial⟩
  | fuel =>
    have h7 := (specTok_same r2).2
    rw [hsp] at h7
    exact h7.elim

theorem variantChunk_same (hp : ∀ s : Str, s.length < k → Same 0 (pv s) (pw s)) {s : Str}
    (hs : s.length ≤ k) :
    Same (s.length - 1) (variantChunk cfg vp pv s) (variantChunk cfg vq pw s) :=
  (variableAccess_same hv hc.variableNe hs).or ((wrapCommand_same hv hc.wrapNe hs).or
    ((variantsTok_same hv hc.variantNe hs).or ((wildcardTok_same hc hv hp hs).or (literal_same _ _ _))))

theorem chunk_same (hp : ∀ s : Str, s.length < k → Same 0 (pv s) (pw s)) {s : Str}
    (hs : s.length ≤ k) :
    Same (s.length - 1) (chunk cfg vp pv s) (chunk cfg vq pw s) :=
  (variableAssignment_same hv hc.variableNe hs).or <|
  (variableAccess_same hv hc.variableNe hs).or ((wrapCommand_same hv hc.wrapNe hs).or
    ((variantsTok_same hv hc.variantNe hs).or ((wildcardTok_same hc hv hp hs).or (literal_same _ _ _))))

theorem variantPrompt_same (hp : ∀ s : Str, s.length < k → Same 0 (pv s) (pw s)) {s : Str}
    (hs : s.length ≤ k) :
    Same s.length (variantPrompt cfg vp pv s) (variantPrompt cfg vq pw s) := by
  unfold variantPrompt
  have h1 := skip_length s
  refine (Same.mono (Same.many (k := k) (fun s hs => variantChunk_same hc hv hp hs) ?_ _ _ (by omega)
    (by omega)) h1).bind fun cs r h => .ok h
  rintro s a r' hp rfl
  rw [variantChunk_nil hc] at hp
  cases hp

theorem promptTok_same (hp : ∀ s : Str, s.length < k → Same 0 (pv s) (pw s)) {s : Str}
    (hs : s.length ≤ k) :
    Same 0 (promptTok cfg vp pv s) (promptTok cfg vq pw s) := by
  unfold promptTok
  have h1 := skip_length s
  refine (Same.mono (Same.many (k := k) (fun s hs => chunk_same hc hv hp hs) ?_ _ _ (by omega)
    (by omega)) h1).bind fun cs r h => ?_
  · rintro s a r' hp rfl
    rw [chunk_nil hc] at hp
    cases hp
  · split
    · exact .ok (Nat.le_refl _)
    · exact .fail

end

/-- Depth: any two depths greater than the length of the text give the same answer. -/
theorem parsers_same {cfg : ParserCfg} (hc : cfg.Usable) : ∀ (k n m : Nat), k ≤ n → k ≤ m →
    ∀ s : Str, s.length < k →
      Same s.length ((parsers cfg n).1 s) ((parsers cfg m).1 s) ∧
      Same 0 ((parsers cfg n).2 s) ((parsers cfg m).2 s)
  | 0, _, _, _, _, _, h => absurd h (Nat.not_lt_zero _)
  | k + 1, 0, _, h, _, _, _ => absurd h (by omega)
  | k + 1, _, 0, _, h, _, _ => absurd h (by omega)
  | k + 1, n + 1, m + 1, hn, hm, s, hs => by
    have ih := parsers_same hc k n m (by omega) (by omega)
    refine ⟨variantPrompt_same hc (k := k) (fun s h => (ih s h).1) (fun s h => (ih s h).2) (by omega), ?_⟩
    show Same 0 (parseTok _ _ _ s) (parseTok _ _ _ s)
    unfold parseTok
    split
    · exact .ok (Nat.zero_le _)
    · exact promptTok_same hc (k := k) (fun s h => (ih s h).1) (fun s h => (ih s h).2) (by omega)

theorem expandTabs_of_not_mem : ∀ (col : Nat) (s : Str), '\t' ∉ s → expandTabs col s = s
  | _, [], _ => rfl
  | col, c :: cs, h => by
    simp only [List.mem_cons, not_or] at h
    unfold expandTabs
    rw [if_neg (Ne.symm h.1), expandTabs_of_not_mem _ cs h.2, expandTabs_of_not_mem _ cs h.2]
    split <;> rfl

end Verif
