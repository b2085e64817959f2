import Verif.Janus.Props

/-! # Tags of documents (C14) -/

namespace Verif.Janus

variable {PK KS CT Rand : Type}

/-- **C14** for the tags themselves: the documents and keywords that are used have different tags, unless the
pseudo-random function of the tags has a collision between two different inputs that are used. -/
theorem C14_doc_tag (c : Crypto PK KS CT Rand) (used : List (Str × Index))
    (hprf : ∀ p ∈ used, ∀ q ∈ used, keywordDocString p.1 p.2 ≠ keywordDocString q.1 q.2 →
      c.tagPrf (keywordDocString p.1 p.2) ≠ c.tagPrf (keywordDocString q.1 q.2)) :
    ∀ p ∈ used, ∀ q ∈ used, docTag c p.1 p.2 = docTag c q.1 q.2 → p = q := by
  intro p hp q hq h
  by_cases hne : keywordDocString p.1 p.2 = keywordDocString q.1 q.2
  · obtain ⟨h1, h2⟩ := C14_tag_injective _ _ _ _ hne
    exact Prod.ext h1 h2
  · exact absurd h (hprf p hp q hq hne)

/-- The hypothesis holds for four pairs: two keywords, one of them empty,
with two documents each. -/
example : let used : List (Str × Index) := [([97], 1), ([97], 2), ([], 1), ([], 2)]
    let c : Crypto Unit (UInt32 × Tag) (Index × Tag) Unit :=
      { Toy.crypto with tagPrf := fun s => Vector.ofFn (fun j => s.reverse.getD j.val 0) }
    (∀ p ∈ used, ∀ q ∈ used, keywordDocString p.1 p.2 ≠ keywordDocString q.1 q.2 →
      c.tagPrf (keywordDocString p.1 p.2) ≠ c.tagPrf (keywordDocString q.1 q.2)) ∧
    docTag c [97] 1 ≠ docTag c [97] 2 := by
  decide +kernel

end Verif.Janus
