import Verif.Ideal.Dist
import Verif.Ideal.TethysProps
import Verif.Tethys.HidingProps
import Verif.Leak.Core

/-!
# What the Tethys server sees, with ideal cryptography: C79

The server sees the table, the search requests of the client, and the keys of the blocks that it computes to answer them
(`/repo/lib/include/sse/schemes/tethys/tethys_server.hpp` L48-73). The tokens of the keywords and the hash function are chosen at
random, as in `Verif.Ideal.Tethys`; so are the bytes of the key stream that encrypts the pages
(`/repo/lib/include/sse/schemes/tethys/encoders/encode_encrypt.hpp` L61-91).
-/

namespace Verif.Ideal.Tethys

open Verif Verif.Tethys Verif.Leak

variable {W : Type} [DecidableEq W]

instance : Fintype UInt8 := Fintype.ofEquiv (Fin (2 ^ 8)) ⟨UInt8.ofFin, UInt8.toFin, fun _ => rfl, fun _ => rfl⟩

/-- What is chosen at random: the tokens of the keywords and the hash function, and the key stream for the pages of the table. -/
abbrev FullChoice (U : Finset W) (page n : Nat) := Choice U × (Fin n × Fin page → UInt8)

/-- The cipher with the key stream `S` for the key `k`; it is `c` elsewhere. -/
def cipherOf {page n : Nat} (c : Cipher) (k : Vector UInt8 32) (S : Fin n × Fin page → UInt8) : Cipher := fun k' v i =>
  if h : k' = k ∧ v < n ∧ i < page then S (⟨v, h.2.1⟩, ⟨i, h.2.2⟩) else c k' v i

/-- What is not chosen -/
structure Fixed (W : Type) where
  page : Nat
  size : Nat
  /-- the two positions of a key, cut from it -/
  hash : CoreKey → UInt64 × UInt64
  cipher : Cipher
  key : Vector UInt8 32
  /-- outside of `U` -/
  prf : W → Token

/-- What the server sees: the table, and for each search the request and the keys that it computes; nothing if the construction
fails. -/
def view {U : Finset W} (R : Fixed W) (ω : FullChoice U R.page R.size) (index : List (W × List Index)) (ws : List W) :
    Option (List (List UInt8) × List (SearchRequest × List CoreKey)) :=
  match schemeBuild R.page R.size R.hash (extend R.prf ω.1.1) (hashOf ω.1.2) (.encrypt (cipherOf R.cipher R.key ω.2) R.key) index none with
  | .error _ => none
  | .ok (fs, counters) => some (fs.table, ws.map (fun w =>
      let r := (Client.mk Map.empty counters (extend R.prf ω.1.1) .separate).searchRequest w
      (r, (List.range r.blocks.toNat).map (deriveCoreKey (hashOf ω.1.2) r.token))))

/-- The number of blocks of a keyword -/
def blocks (page : Nat) (index : List (W × List Index)) (w : W) : Nat :=
  match index.find? (fun x => x.1 = w) with
  | some x => Spec.blockCount page x.2.length
  | none => 0

/-- What the server may learn from the searches: for each of them the first search for the same keyword, and the number of blocks -/
def searchLeak (page : Nat) (index : List (W × List Index)) (ws : List W) : List (Nat × Nat) :=
  ws.map (fun w => (ws.idxOf w, blocks page index w))

/-! ## The construction -/

theorem build_ok {page n : Nat} {hash : CoreKey → UInt64 × UInt64} {prf : W → Token} {H : List UInt8 → CoreKey}
    {index : List (W × List Index)} (hok : Spec.IndexOk page n prf H index) :
    ∃ fs, schemeBuild page n hash prf H .separate index none = .ok (fs, countersOf page index Map.empty) := by
  obtain ⟨fs, counters, h, -, -⟩ := search_spec page n hash prf H .separate index hok
  refine ⟨fs, ?_⟩
  have hroom := hok.room
  have hm : 0 < page / 8 - 6 := by omega
  have hs : SmallEnough page (blocksOf page prf H index) := by
    unfold SmallEnough
    rw [sum_blocksOf hm]
    exact hok.total
  obtain ⟨b0, -, -, hb0, -⟩ := insertAll_builder hash hok.buckets (blocksOf page prf H index) hs
  have hindex := insertIndex_spec hok.buckets hb0 hm prf H index [] Map.empty (by simpa using hs)
  rw [show b0.insertAll [] = b0 from rfl] at hindex
  have h' := h
  unfold schemeBuild at h'
  rw [hb0] at h'
  simp only at h'
  rw [hindex] at h'
  simp only at h'
  split at h'
  · cases h'
  · cases h'
    exact h

theorem counters_eq (page : Nat) (index : List (W × List Index)) (hd : (index.map Prod.fst).Nodup) (w : W) :
    ((countersOf page index Map.empty) w).getD 0 = UInt32.ofNat (blocks page index w) := by
  obtain ⟨h1, h2⟩ := countersOf_spec page index Map.empty hd w
  unfold blocks
  cases hf : index.find? (fun x => x.1 = w) with
  | none =>
    rw [h2 (fun x hx e => by
      have := List.find?_eq_none.mp hf x hx
      simp [e] at this)]
    rfl
  | some x =>
    have hx := List.mem_of_find?_eq_some hf
    have he : x.1 = w := by simpa using List.find?_some hf
    rw [h1 x hx he]
    rfl

/-- The plain table of the construction -/
def plain {U : Finset W} (R : Fixed W) (ω : Choice U) (index : List (W × List Index)) : List (List UInt8) :=
  match schemeBuild R.page R.size R.hash (extend R.prf ω.1) (hashOf ω.2) .separate index none with
  | .error _ => []
  | .ok (fs, _) => fs.table

/-- What the server sees when the construction succeeds -/
theorem view_eq {U : Finset W} (R : Fixed W) (ω : FullChoice U R.page R.size) (index : List (W × List Index)) (ws : List W)
    (hok : Spec.IndexOk R.page R.size (extend R.prf ω.1.1) (hashOf ω.1.2) index) :
    (plain R ω.1 index).length = R.size ∧ (∀ p ∈ plain R ω.1 index, p.length = R.page) ∧
    view R ω index ws = some (List.zipWith (xorStream (cipherOf R.cipher R.key ω.2) R.key) (List.range R.size) (plain R ω.1 index),
      ws.map (fun w => (⟨extend R.prf ω.1.1 w, UInt32.ofNat (blocks R.page index w)⟩,
        (List.range (UInt32.ofNat (blocks R.page index w)).toNat).map (deriveCoreKey (hashOf ω.1.2) (extend R.prf ω.1.1 w))))) := by
  obtain ⟨fs, hfs⟩ := build_ok (hash := R.hash) hok
  obtain ⟨h1, h2⟩ := schemeBuild_length hfs
  have hp : plain R ω.1 index = fs.table := by
    unfold plain; rw [hfs]
  rw [hp]
  refine ⟨h1, h2, ?_⟩
  unfold view
  rw [schemeBuild_encrypt, hfs]
  simp only [Except.map]
  congr 2
  refine List.map_congr_left (fun w _ => ?_)
  simp only [Client.searchRequest, counters_eq R.page index hok.keywords w]

theorem xorStream_congr {c c' : Cipher} {k : Vector UInt8 32} {n : Nat} {t : List (List UInt8)} (h : ∀ v i, c k v i = c' k v i) :
    List.zipWith (xorStream c k) (List.range n) t = List.zipWith (xorStream c' k) (List.range n) t := by
  have : xorStream c k = xorStream c' k := by
    funext v p
    unfold xorStream
    simp only [h]
  rw [this]

/-! ## The permutation of the keywords -/

theorem idxOf_eq {ws ws' : List W} (h : ws.map ws.idxOf = ws'.map ws'.idxOf) (i j : Nat) (hi : i < ws.length) (hj : j < ws.length)
    (hi' : i < ws'.length) (hj' : j < ws'.length) : ws[i] = ws[j] ↔ ws'[i] = ws'[j] := by
  have key : ∀ (vs : List W) (i j : Nat) (hi : i < vs.length) (hj : j < vs.length),
      vs[i] = vs[j] ↔ (vs.map vs.idxOf)[i]'(by simpa using hi) = (vs.map vs.idxOf)[j]'(by simpa using hj) := by
    intro vs i j hi hj
    rw [List.getElem_map, List.getElem_map]
    constructor
    · intro e; rw [e]
    · intro e
      exact (List.idxOf_inj (List.getElem_mem hi)).mp e
  rw [key ws i j hi hj, key ws' i j hi' hj']
  simp only [h]

/-- A permutation of `U` that maps each keyword searched in the one list to the one in the other -/
theorem exists_rename {U : Finset W} {ws ws' : List W} (hU : ∀ w ∈ ws, w ∈ U) (hU' : ∀ w ∈ ws', w ∈ U)
    (h : ws.map ws.idxOf = ws'.map ws'.idxOf) :
    ∃ τ : Equiv.Perm U, ∀ (i : Nat) (hi : i < ws.length) (hi' : i < ws'.length),
      τ ⟨ws[i], hU _ (List.getElem_mem hi)⟩ = ⟨ws'[i], hU' _ (List.getElem_mem hi')⟩ := by
  have hlen : ws.length = ws'.length := by
    have := congrArg List.length h
    simpa using this
  let l : List (U × U) := (List.finRange ws.length).map (fun (i : Fin ws.length) =>
    (⟨ws[i], hU _ (List.getElem_mem i.2)⟩, ⟨ws'[i.val]'(hlen ▸ i.2), hU' _ (List.getElem_mem (hlen ▸ i.2))⟩))
  have hc : Consistent l := by
    intro x hx y hy
    obtain ⟨i, -, rfl⟩ := List.mem_map.mp hx
    obtain ⟨j, -, rfl⟩ := List.mem_map.mp hy
    simp only [Subtype.mk.injEq]
    exact idxOf_eq h i.val j.val i.2 j.2 (hlen ▸ i.2) (hlen ▸ j.2)
  refine ⟨permOf l, fun i hi hi' => ?_⟩
  exact permOf_apply l hc (⟨ws[i], hU _ (List.getElem_mem hi)⟩, ⟨ws'[i], hU' _ (List.getElem_mem hi')⟩)
    (List.mem_map.mpr ⟨⟨i, hi⟩, List.mem_finRange _, rfl⟩)

/-! ## C79 -/

/-- **C79** (Tethys): an observer of the server distinguishes two indexes, with searches of the same leakage, with an advantage of at
most the sum of the two bounds: the table and the searches reveal the parameters, which searches are for the same keyword, and
the numbers of blocks of the keywords searched. -/
theorem C79_tethys {U : Finset W} (R : Fixed W) (index index' : List (W × List Index)) (ws ws' : List W)
    (hleak : searchLeak R.page index ws = searchLeak R.page index' ws')
    (hU : (index.map Prod.fst).toFinset ⊆ U) (hU' : (index'.map Prod.fst).toFinset ⊆ U) (hw : ∀ w ∈ ws, w ∈ U)
    (hw' : ∀ w ∈ ws', w ∈ U) (hnum : Numbers R.page R.size index) (hnum' : Numbers R.page R.size index')
    (E : Option (List (List UInt8) × List (SearchRequest × List CoreKey)) → Prop) :
    |prob (fun ω : FullChoice U R.page R.size => E (view R ω index ws)) -
        prob (fun ω : FullChoice U R.page R.size => E (view R ω index' ws'))| ≤
      bound index.length (index.map (fun x => Spec.blockCount R.page x.2.length)).sum +
        bound index'.length (index'.map (fun x => Spec.blockCount R.page x.2.length)).sum := by
  have hl1 : ws.map ws.idxOf = ws'.map ws'.idxOf := by
    have := congrArg (List.map Prod.fst) hleak
    simpa [searchLeak, Function.comp_def] using this
  have hl2 : ws.map (blocks R.page index) = ws'.map (blocks R.page index') := by
    have := congrArg (List.map Prod.snd) hleak
    simpa [searchLeak, Function.comp_def] using this
  have hlen : ws.length = ws'.length := by
    have := congrArg List.length hl1
    simpa using this
  obtain ⟨τ, hτ⟩ := exists_rename hw hw' hl1
  let φ : Choice U → Choice U := fun ω => (fun u => ω.1 (τ u), ω.2)
  have hφ : Function.Bijective φ := by
    constructor
    · rintro ⟨f, h⟩ ⟨f', h'⟩ he
      obtain ⟨h1, rfl⟩ := Prod.mk.inj he
      refine Prod.ext (funext fun u => ?_) rfl
      have := congrFun h1 (τ.symm u)
      simpa using this
    · rintro ⟨f, h⟩
      exact ⟨(fun u => f (τ.symm u), h), by simp [φ]⟩
  let δ : Choice U → Fin R.size × Fin R.page → UInt8 := fun ω x =>
    byteAt (plain R (φ ω) index) x.1 x.2 ^^^ byteAt (plain R ω index') x.1 x.2
  have hΦ : Function.Bijective (fun ω : FullChoice U R.page R.size =>
      ((φ ω.1, fun x => ω.2 x ^^^ δ ω.1 x) : FullChoice U R.page R.size)) := by
    constructor
    · rintro ⟨a, S⟩ ⟨a', S'⟩ he
      obtain ⟨h1, h2⟩ := Prod.mk.inj he
      have h1 := hφ.1 h1
      simp only at h1 h2
      subst h1
      refine Prod.ext rfl (funext fun x => ?_)
      have := congrFun h2 x
      exact (UInt8.xor_left_inj _).mp this
    · rintro ⟨a, S⟩
      obtain ⟨b, rfl⟩ := hφ.2 a
      refine ⟨(b, fun x => S x ^^^ δ b x), Prod.ext rfl (funext fun x => ?_)⟩
      simp [UInt8.xor_assoc]
  have b1 := prob_first_le (Ω₂ := Fin R.size × Fin R.page → UInt8) (C78_tethys_collision (U := U) R.prf R.page R.size index hU hnum)
  have b2 := prob_first_le (Ω₂ := Fin R.size × Fin R.page → UInt8) (C78_tethys_collision (U := U) R.prf R.page R.size index' hU' hnum')
  rw [← prob_bijective hΦ] at b1
  refine le_trans (prob_dist_le hΦ (fun ω => view R ω index ws) (fun ω => view R ω index' ws') _ ?_ E) (prob_or_le b1 b2)
  rintro ⟨ω, S⟩ hω
  simp only [not_or, not_not] at hω
  obtain ⟨h1, h2⟩ := hω
  obtain ⟨l1, l2, v1⟩ := view_eq R (φ ω, fun x => S x ^^^ δ ω x) index ws h1
  obtain ⟨l1', l2', v2⟩ := view_eq R (ω, S) index' ws' h2
  simp only at l1 l2 l1' l2' v1 v2
  show view R (φ ω, fun x => S x ^^^ δ ω x) index ws = view R (ω, S) index' ws'
  rw [v1, v2]
  refine congrArg some (Prod.ext ?_ ?_)
  · simp only
    rw [← xor_shift (k := R.key) (cipherOf R.cipher R.key S) l1 l2 l1' l2']
    apply xorStream_congr
    intro v i
    unfold shift cipherOf
    rw [if_pos rfl]
    by_cases hvi : v < R.size ∧ i < R.page
    · rw [dif_pos ⟨rfl, hvi⟩, dif_pos ⟨rfl, hvi⟩]
    · rw [dif_neg (fun h => hvi h.2), dif_neg (fun h => hvi h.2)]
      have hout : R.size ≤ v ∨ R.page ≤ i := by omega
      rw [byteAt_out l1 l2 hout, byteAt_out l1' l2' hout]
      simp
  · simp only
    apply List.ext_getElem (by simpa using hlen)
    intro i hi hi'
    simp only [List.length_map] at hi hi'
    rw [List.getElem_map, List.getElem_map]
    have e1 : extend R.prf (φ ω).1 ws[i] = extend R.prf ω.1 ws'[i] := by
      unfold extend
      rw [dif_pos (hw _ (List.getElem_mem hi)), dif_pos (hw' _ (List.getElem_mem hi'))]
      simp only [φ]
      rw [hτ i hi hi']
    have e2 : blocks R.page index ws[i] = blocks R.page index' ws'[i] := by
      have h3 : (ws.map (blocks R.page index))[i]'(by simpa using hi) = (ws'.map (blocks R.page index'))[i]'(by simpa using hi') := by
        simp only [hl2]
      simpa using h3
    rw [e1, e2]

/-- **C79** (Tethys): the answer of the server to a search depends on its files and on what the server sees only. -/
theorem C79_tethys_answer (H H' : List UInt8 → CoreKey) (s : Store) (r : SearchRequest)
    (h : (List.range r.blocks.toNat).map (deriveCoreKey H r.token) = (List.range r.blocks.toNat).map (deriveCoreKey H' r.token)) :
    serverSearch H s r = serverSearch H' s r := by
  have key : ∀ is : List Nat, (∀ i ∈ is, deriveCoreKey H r.token i = deriveCoreKey H' r.token i) →
      serverLoop H s r.token is = serverLoop H' s r.token is := by
    intro is
    induction is with
    | nil => intro _; rfl
    | cons i is ih =>
      intro hi
      unfold serverLoop
      rw [hi i (List.mem_cons_self ..), ih (fun j hj => hi j (List.mem_cons_of_mem _ hj))]
  exact key _ (fun i hi => List.map_inj_left.mp h i hi)

/-- With a million keywords and a billion blocks in each of the two indexes, the bound is below `2^-67`. -/
theorem C79_tethys_number : bound (2 ^ 20) (2 ^ 30) + bound (2 ^ 20) (2 ^ 30) < 1 / 2 ^ 67 := by
  unfold bound
  rw [Nat.choose_two_right, Nat.choose_two_right]
  norm_num

/-! ## An instance -/

/-- Parameters -/
def sampleFixed : Fixed Nat := ⟨104, 2, Sample.hash, Sample.cipher, Sample.key, Sample.prf⟩

/-- Another index: other keywords, other numbers of documents. -/
def otherIndex : List (Nat × List Index) := [(7, [1, 2, 3, 4, 5, 6, 7, 8, 9, 10, 11]), (4, [3])]

/-- The hypotheses hold for the two indexes, and searches for a keyword of two blocks, a keyword of one block and again the first. -/
example (E : Option (List (List UInt8) × List (SearchRequest × List CoreKey)) → Prop) :
    |prob (fun ω : FullChoice (Finset.range 10) 104 2 => E (view sampleFixed ω Sample.index [1, 2, 1])) -
      prob (fun ω : FullChoice (Finset.range 10) 104 2 => E (view sampleFixed ω otherIndex [7, 4, 7]))| ≤ bound 3 4 + bound 2 3 :=
  C79_tethys (U := Finset.range 10) sampleFixed Sample.index otherIndex [1, 2, 1] [7, 4, 7] (by decide) (by decide) (by decide)
    (by decide) (by decide) ⟨by decide, by decide, by decide, by decide, by decide, by decide, by decide⟩
    ⟨by decide, by decide, by decide, by decide, by decide, by decide, by decide⟩ E

end Verif.Ideal.Tethys
