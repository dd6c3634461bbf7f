import Verif.Model.Keywords
/-!
# Specification of the keyword finder (C89)
-/

namespace Verif.Spec
open Verif

variable {Nlp X : Type}

/-- The texts of a history (the last one first), each once, where it occurs first. -/
def recentTexts : List Str → List Str
  | [] => []
  | t :: h => t :: (recentTexts h).filter (· ≠ t)

/-- The texts of `ts` for which the finder has to be asked if `h` (the last one first) are the texts asked for before:
those that are not among the ten texts asked for last. -/
def notRecent : List Str → List Str → List Str
  | _, [] => []
  | h, t :: ts => if t ∈ (recentTexts h).take 10 then notRecent (t :: h) ts else t :: notRecent (t :: h) ts

/-- `FailsWith S x e x'`: getting a language model fails with the exception `e`. -/
inductive FailsWith (S : Spacy Nlp X) : X → LibErr → X → Prop
  | noSpacy {x x₁ e} : S.importSpacy x = (.error e, x₁) → FailsWith S x e x₁
  | noLoad {x x₁ x₂ e} : S.importSpacy x = (.ok (), x₁) → S.load x₁ = (.error e, x₂) → e ≠ .osError →
      FailsWith S x e x₂
  | noSecondLoad {x x₁ x₂ x₃ nlp e} : S.importSpacy x = (.ok (), x₁) → S.load x₁ = (.ok nlp, x₂) →
      S.load x₂ = (.error e, x₃) → FailsWith S x e x₃
  | noDownloader {x x₁ x₂ x₃ e} : S.importSpacy x = (.ok (), x₁) → S.load x₁ = (.error .osError, x₂) →
      S.importDownload x₂ = (.error e, x₃) → FailsWith S x e x₃
  | noDownload {x x₁ x₂ x₃ x₄ e} : S.importSpacy x = (.ok (), x₁) → S.load x₁ = (.error .osError, x₂) →
      S.importDownload x₂ = (.ok (), x₃) → S.download x₃ = (.error e, x₄) → FailsWith S x e x₄
  | noReload {x x₁ x₂ x₃ x₄ x₅ e} : S.importSpacy x = (.ok (), x₁) → S.load x₁ = (.error .osError, x₂) →
      S.importDownload x₂ = (.ok (), x₃) → S.download x₃ = (.ok (), x₄) → S.load x₄ = (.error e, x₅) →
      FailsWith S x e x₅

/-- `Obtained S x r x'`: the attempt to get a keyword finder has the result `r`. -/
inductive Obtained (S : Spacy Nlp X) : X → Except LibErr (Finder Nlp) → X → Prop
  /-- spaCy and the model are there: the model is loaded (twice, the second one is used). -/
  | installed {x x₁ x₂ x₃ nlp₁ nlp} : S.importSpacy x = (.ok (), x₁) → S.load x₁ = (.ok nlp₁, x₂) →
      S.load x₂ = (.ok nlp, x₃) → Obtained S x (.ok (.spacy nlp)) x₃
  /-- The model is not there: it is downloaded and loaded. -/
  | downloaded {x x₁ x₂ x₃ x₄ x₅ nlp} : S.importSpacy x = (.ok (), x₁) → S.load x₁ = (.error .osError, x₂) →
      S.importDownload x₂ = (.ok (), x₃) → S.download x₃ = (.ok (), x₄) → S.load x₄ = (.ok nlp, x₅) →
      Obtained S x (.ok (.spacy nlp)) x₅
  /-- spaCy, or a part of it, cannot be imported. -/
  | missing {x x'} : FailsWith S x .importError x' → Obtained S x (.ok .cheap) x'
  /-- Something else goes wrong. -/
  | failed {x x' e} : e ≠ .importError → FailsWith S x e x' → Obtained S x (.error e) x'

/-- Attempts to get a keyword finder that all fail, with the exceptions. -/
inductive Attempts (S : Spacy Nlp X) : X → List LibErr → X → Prop
  | none {x} : Attempts S x [] x
  | again {x x₁ x₂ e es} : Obtained S x (.error e) x₁ → Attempts S x₁ es x₂ → Attempts S x (e :: es) x₂

/-- What a keyword finder answers, if the language models answer with `g`. -/
def answer (g : Nlp → Str → Except LibErr (List Str)) (isDigit : Char → Bool) :
    Finder Nlp → Str → Except LibErr (List Str)
  | .cheap, t => .ok (cheapChunker isDigit t)
  | .spacy nlp, t => g nlp t

end Verif.Spec
