import Verif.Janus.ForeignLemmas
import Verif.Janus.Toy

/-!
# C87 for Janus: requests that no client made

The search of the server for any request either throws an exception, reads outside of a cache entry of a wrong size, or returns.
**Violated**: an exception of the search for key shares comes after the removal of the ciphertexts, so that the documents are lost.
-/

namespace Verif.Janus

variable {PK KS CT Rand V : Type}

/-- **C87**, Janus: what a search does for any request and any contents of the databases. It throws an exception if and only if one of the two
keys cannot be evaluated, it reads outside of a cache entry if and only if the keys can be evaluated and the size of the entry is wrong
(C16), and otherwise it returns. -/
theorem C87_janus (c : Crypto PK KS CT Rand) (k : Nat) (srv : Server KS CT) (req : SearchReq c) :
    ((searchState c k srv req).1 = .error .exception ↔ ¬ (Spec.usable c.ins req.ins ∧ Spec.usable c.del req.del)) ∧
    ((searchState c k srv req).1 = .error .outOfBounds ↔
      (Spec.usable c.ins req.ins ∧ Spec.usable c.del req.del) ∧ 16 ≤ Spec.cacheSize srv req.kwToken % 24) ∧
    ((∃ res, (searchState c k srv req).1 = .ok res) ↔
      (Spec.usable c.ins req.ins ∧ Spec.usable c.del req.del) ∧ Spec.cacheSize srv req.kwToken % 24 < 16) := by
  have hi := diana_search_none c.ins srv.insEdb req.ins true
  have hd := diana_search_none c.del srv.delEdb req.del true
  have hr := readCache_cases srv req.kwToken
  unfold searchState
  cases h1 : Diana.search c.ins srv.insEdb req.ins true with
  | none =>
    have := hi.mp h1
    simp [this]
  | some p =>
    have u1 : Spec.usable c.ins req.ins := Classical.not_not.mp (fun h => by rw [hi.mpr h] at h1; cases h1)
    cases h2 : Diana.search c.del srv.delEdb req.del true with
    | none =>
      have := hd.mp h2
      simp [this]
    | some q =>
      have u2 : Spec.usable c.del req.del := Classical.not_not.mp (fun h => by rw [hd.mpr h] at h2; cases h2)
      by_cases hs : 16 ≤ Spec.cacheSize srv req.kwToken % 24
      · simp only [hr.1 hs]
        simp [u1, u2, hs]
      · obtain ⟨l, hl⟩ := hr.2 (by omega)
        simp only [hl]
        simp [u1, u2, hs]
        omega

/-- **C87**, Janus: the results of a search that returns, its new cache entry and its errors are those of the search to which C12 applies,
whoever made the request. -/
theorem C87_janus_results (c : Crypto PK KS CT Rand) (k : Nat) (srv : Server KS CT) (req : SearchReq c) :
    (∀ res srv', search c srv req = .ok (res, srv') ↔ searchState c k srv req = (.ok res, srv')) ∧
    ∀ e, search c srv req = .error e ↔ (searchState c k srv req).1 = .error e :=
  searchState_search c k srv req

open Classical in
/-- **C87**, Janus: what any search leaves behind. Entries are only removed, and only those at the leaves of the keys of the request: all of
them if the keys can be evaluated, and those before the exception otherwise. The cache changes only in a search that returns, at its
keyword token. -/
theorem C87_janus_left (c : Crypto PK KS CT Rand) (k : Nat) (srv srv' : Server KS CT) (req : SearchReq c) (o : Except Fault (List Index))
    (h : searchState c k srv req = (o, srv')) :
    Spec.without srv.insEdb srv'.insEdb (fun t => req.ins.addCount ≠ 0 ∧
      if Spec.usable c.ins req.ins then Spec.reached c.ins req.ins.rcprf (c.ins.maxLeaf req.ins.rcprf + 1) t
      else Spec.reached c.ins req.ins.rcprf k t) ∧
    Spec.without srv.delEdb srv'.delEdb (fun t => Spec.usable c.ins req.ins ∧ req.del.addCount ≠ 0 ∧
      if Spec.usable c.del req.del then Spec.reached c.del req.del.rcprf (c.del.maxLeaf req.del.rcprf + 1) t
      else Spec.reached c.del req.del.rcprf k t) ∧
    (∀ w, w ≠ req.kwToken → srv'.cache w = srv.cache w) ∧ ((∀ res, o ≠ .ok res) → srv'.cache = srv.cache) := by
  have hi := diana_search_none c.ins srv.insEdb req.ins true
  have hd := diana_search_none c.del srv.delEdb req.del true
  have nz : ∀ {V : Type} (d : Diana.Crypto Str V) (r : Diana.SearchReq d), ¬ Spec.usable d r → r.addCount ≠ 0 :=
    fun d r hu h0 => hu (Or.inl h0)
  unfold searchState at h
  cases h1 : Diana.search c.ins srv.insEdb req.ins true with
  | none =>
    have u1 := hi.mp h1
    rw [h1] at h
    obtain ⟨rfl, rfl⟩ := Prod.mk.inj h
    simp only [u1, if_false, false_and]
    refine ⟨?_, fun t => ⟨fun h => h.elim, fun _ => rfl⟩, by simp, by simp⟩
    intro t
    have := handled_without c.ins srv.insEdb req.ins.rcprf k t
    exact ⟨fun h => this.1 h.2, fun h => this.2 (fun hh => h ⟨nz _ _ u1, hh⟩)⟩
  | some p =>
    obtain ⟨l, e⟩ := p
    have u1 : Spec.usable c.ins req.ins := Classical.not_not.mp (fun h => by rw [hi.mpr h] at h1; cases h1)
    have w1 := search_without c.ins _ _ _ _ h1
    rw [h1] at h
    simp only at h
    cases h2 : Diana.search c.del srv.delEdb req.del true with
    | none =>
      have u2 := hd.mp h2
      rw [h2] at h
      obtain ⟨rfl, rfl⟩ := Prod.mk.inj h
      simp only [u1, u2, if_true, if_false, true_and]
      refine ⟨w1, ?_, by simp, by simp⟩
      intro t
      have := handled_without c.del srv.delEdb req.del.rcprf k t
      exact ⟨fun h => this.1 h.2, fun h => this.2 (fun hh => h ⟨nz _ _ u2, hh⟩)⟩
    | some q =>
      obtain ⟨l2, e2⟩ := q
      have u2 : Spec.usable c.del req.del := Classical.not_not.mp (fun h => by rw [hd.mpr h] at h2; cases h2)
      have w2 := search_without c.del _ _ _ _ h2
      rw [h2] at h
      simp only at h
      simp only [u1, u2, if_true, true_and]
      cases h3 : readCache srv.cache req.kwToken with
      | error x =>
        rw [h3] at h
        obtain ⟨rfl, rfl⟩ := Prod.mk.inj h
        exact ⟨w1, w2, fun _ _ => rfl, fun _ => rfl⟩
      | ok cached =>
        rw [h3] at h
        obtain ⟨rfl, rfl⟩ := Prod.mk.inj h
        refine ⟨w1, w2, fun w hw => ?_, fun h => absurd rfl (h _)⟩
        simp [writeCache, ListStore.put, Map.put_apply, hw]

/-- **C87 is violated**, Janus: if the key for the insertions can be evaluated and the one for the removals cannot, the search throws an exception
after the ciphertexts have been removed. They are not in the cache: a later search with the same key for the insertions only returns what
was in the cache before. -/
theorem C87_janus_lost_violated (c : Crypto PK KS CT Rand) (k k' : Nat) (srv : Server KS CT) (req req' : SearchReq c)
    (hi : Spec.usable c.ins req.ins) (hd : ¬ Spec.usable c.del req.del) (hreq : req'.ins = req.ins) (htok : req'.kwToken = req.kwToken)
    (cached : List (Index × Tag)) (hcache : readCache srv.cache req.kwToken = .ok cached) :
    (searchState c k srv req).1 = .error .exception ∧
    ∀ res, (searchState c k' (searchState c k srv req).2 req').1 = .ok res → res.Sublist (cached.map (·.1)) := by
  refine ⟨(C87_janus c k srv req).1.mpr (fun h => hd h.2), ?_⟩
  obtain ⟨⟨insertions, insEdb⟩, h1⟩ : ∃ p, Diana.search c.ins srv.insEdb req.ins true = some p := by
    cases h : Diana.search c.ins srv.insEdb req.ins true with
    | none => exact absurd hi ((diana_search_none c.ins srv.insEdb req.ins true).mp h)
    | some p => exact ⟨p, rfl⟩
  have h2 := (diana_search_none c.del srv.delEdb req.del true).mpr hd
  have hs : (searchState c k srv req).2 = { srv with
      insEdb := insEdb
      delEdb := (Diana.searchLoop c.del true srv.delEdb (handled c.del req.del.rcprf k)).2 } := by
    unfold searchState
    rw [h1, h2]
  rw [hs]
  have h3 : Diana.search c.ins insEdb req.ins true = some ([], insEdb) := by
    unfold Diana.search at h1 ⊢
    by_cases h0 : req.ins.addCount = 0
    · simp only [h0, if_true] at h1 ⊢
    · simp only [h0, if_false] at h1 ⊢
      obtain ⟨leaves, h4, h5⟩ := Option.map_eq_some_iff.mp h1
      rw [h4, Option.map_some, searchLoop_nothing]
      intro e he
      have : insEdb = (Diana.searchLoop c.ins true srv.insEdb leaves).2 := by rw [h5]
      rw [this]
      exact searchLoop_gone c.ins _ _ _ (Or.inl ⟨e, he, rfl⟩)
  intro res hres
  unfold searchState at hres
  rw [hreq, htok] at hres
  simp only [h3] at hres
  split at hres
  · cases hres
  · rw [hcache] at hres
    simp only at hres
    obtain rfl := Except.ok.inj hres
    simp only [decryptAll, List.filterMap_nil, List.map_nil, List.append_nil]
    exact (List.filter_sublist).map _

/-! ## Examples -/

namespace Foreign

/-- The example cryptography with a key that can be evaluated nowhere, as the empty key -/
def diana {V : Type} (v0 : V) : Diana.Crypto Str V where
  RK := Diana.Token
  CK := Option (Diana.Token × Nat)
  hash := Toy.cut
  kwToken := fun _ => Vector.replicate 32 7
  root := id
  eval := fun r i => Diana.Toy.wide (r.set 15 (UInt8.ofNat i))
  constrain := fun r _ b => some (r, b)
  ceval := fun ck x => ck.bind fun ck => if x ≤ ck.2 then some (Diana.Toy.wide (ck.1.set 15 (UInt8.ofNat x))) else none
  maxLeaf := fun ck => (ck.map (·.2)).getD 0
  emptyCK := none
  token := Diana.Toy.narrow
  mask := fun _ => v0
  xor := fun x _ => x
  xor_xor := by intros; rfl
  maxLeaf_constrain := by intros; rfl
  ceval_constrain := by intro r b x _ hx; simp [hx]

/-- The example cryptography over `diana` -/
def crypto : Crypto Unit (UInt32 × Tag) (Index × Tag) Unit :=
  { Toy.crypto with
    ins := diana (0, Vector.replicate 16 0)
    del := diana (0, Vector.replicate 16 0) }

/-- One ciphertext of document 5 and a cache entry of `n` bytes -/
def server (n : Nat) : Server (UInt32 × Tag) (Index × Tag) where
  insEdb := Map.put (fun _ => none) (Diana.Toy.narrow (Diana.Toy.wide (Vector.replicate 16 0))) (5, Vector.replicate 16 1)
  delEdb := fun _ => none
  cache := Map.put (fun _ => none) (Vector.replicate 16 9) (List.replicate n 0)

/-- A request for one ciphertext and for `d` key shares; the key for the latter cannot be evaluated. -/
def request (t : UInt8) (d : UInt32) : SearchReq crypto where
  kwToken := Vector.replicate 16 t
  ins := ⟨Vector.replicate 32 7, some (Vector.replicate 16 0, 0), 1⟩
  del := ⟨Vector.replicate 32 7, none, d⟩
  firstKeyShare := (0, Vector.replicate 16 0)

theorem usable_ins (t : UInt8) (d : UInt32) : Spec.usable crypto.ins (request t d).ins := by
  right
  intro i hi
  have : i ≤ 0 := hi
  simp [crypto, diana, request, this]

theorem usable_del (t : UInt8) (d : UInt32) : Spec.usable crypto.del (request t d).del ↔ d = 0 := by
  constructor
  · rintro (h | h)
    · exact h
    · exact absurd rfl (h 0 (Nat.zero_le _))
  · exact Or.inl

end Foreign

/-- A search with results, one that reads outside of a cache entry of 20 bytes, and one that throws an exception -/
example :
    (∃ res, (searchState Foreign.crypto 0 (Foreign.server 20) (Foreign.request 8 0)).1 = .ok res) ∧
    (searchState Foreign.crypto 0 (Foreign.server 20) (Foreign.request 9 0)).1 = .error .outOfBounds ∧
    (searchState Foreign.crypto 0 (Foreign.server 20) (Foreign.request 8 2)).1 = .error .exception := by
  refine ⟨(C87_janus _ _ _ _).2.2.mpr ⟨⟨Foreign.usable_ins 8 0, (Foreign.usable_del 8 0).mpr rfl⟩, by decide +kernel⟩,
    (C87_janus _ _ _ _).2.1.mpr ⟨⟨Foreign.usable_ins 9 0, (Foreign.usable_del 9 0).mpr rfl⟩, by decide +kernel⟩,
    (C87_janus _ _ _ _).1.mpr fun h => ?_⟩
  exact absurd ((Foreign.usable_del 8 2).mp h.2) (by decide)

/-- The ciphertext is removed by the search that throws, the cache stays. -/
example : (searchState Foreign.crypto 0 (Foreign.server 20) (Foreign.request 8 2)).2.insEdb
      (Diana.Toy.narrow (Diana.Toy.wide (Vector.replicate 16 0))) = none ∧
    (searchState Foreign.crypto 0 (Foreign.server 20) (Foreign.request 8 2)).2.cache = (Foreign.server 20).cache := by
  refine ⟨by decide +kernel, (C87_janus_left Foreign.crypto 0 (Foreign.server 20) _ (Foreign.request 8 2) _ rfl).2.2.2 ?_⟩
  intro res h
  cases h

/-- Document 5 is found by a correct search, and no longer after one with a wrong key for the removals. -/
example :
    (searchState Foreign.crypto 0 (Foreign.server 0) (Foreign.request 9 0)).1 = .ok [5] ∧
    (searchState Foreign.crypto 0 (Foreign.server 0) (Foreign.request 9 2)).1 = .error .exception ∧
    (searchState Foreign.crypto 0 (searchState Foreign.crypto 0 (Foreign.server 0) (Foreign.request 9 2)).2 (Foreign.request 9 0)).1 = .ok [] ∧
    ∀ res, (searchState Foreign.crypto 0 (searchState Foreign.crypto 0 (Foreign.server 0) (Foreign.request 9 2)).2
      (Foreign.request 9 0)).1 = .ok res → res.Sublist (([] : List (Index × Tag)).map (·.1)) := by
  refine ⟨by decide +kernel, by decide +kernel, by decide +kernel, ?_⟩
  exact (C87_janus_lost_violated Foreign.crypto 0 0 (Foreign.server 0) (Foreign.request 9 2) (Foreign.request 9 0) (Foreign.usable_ins 9 2)
    (fun h => absurd ((Foreign.usable_del 9 2).mp h) (by decide)) rfl rfl [] (by decide +kernel)).2

end Verif.Janus
