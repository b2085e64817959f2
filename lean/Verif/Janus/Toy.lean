import Verif.Janus.Refine

/-! # A concrete instance of the cryptography of Janus, used in the examples -/

namespace Verif.Janus.Toy

open Verif

/-- The first 16 bytes of a string, padded with zeros. -/
def cut (s : Str) : Vector UInt8 16 := Vector.ofFn fun j => s[j.val]?.getD 0

/-- Diana with leaf tokens in clear: the beginning of the keyword, and the position in the last
byte. -/
def diana {V : Type} (v0 : V) : Diana.Crypto Str V where
  RK := Diana.Token
  CK := Diana.Token × Nat
  hash := cut
  kwToken := fun _ => Vector.replicate 32 7
  root := id
  eval := fun r i => Diana.Toy.wide (r.set 15 (UInt8.ofNat i))
  constrain := fun r _ b => (r, b)
  ceval := fun ck x => if x ≤ ck.2 then some (Diana.Toy.wide (ck.1.set 15 (UInt8.ofNat x))) else none
  maxLeaf := fun ck => ck.2
  emptyCK := (Vector.replicate 16 0, 0)
  token := Diana.Toy.narrow
  mask := fun _ => v0
  xor := fun x _ => x
  xor_xor := by intros; rfl
  maxLeaf_constrain := by intros; rfl
  ceval_constrain := by intro r b x _ hx; simp [hx]

/-- Puncturable encryption in clear: a key share is its number and its tag; decryption demands
that the shares be numbered 1, 2, …, `d`, where `d` is the number of the initial share, and that
the tag of the ciphertext be none of theirs. -/
def decrypt (shares : List (UInt32 × Tag)) (ct : Index × Tag) : Option Index :=
  match shares with
  | [] => none
  | first :: rest =>
    if rest.map (·.1) = (List.range rest.length).map (fun k => UInt32.ofNat (k + 1)) ∧
        first.1 = UInt32.ofNat rest.length ∧ !(rest.map (·.2)).contains ct.2
    then some ct.1 else none

def crypto : Crypto Unit (UInt32 × Tag) (Index × Tag) Unit where
  ins := diana (0, Vector.replicate 16 0)
  del := diana (0, Vector.replicate 16 0)
  kwToken := cut
  tagPrf := cut
  derive := fun _ => ()
  initialKeyshare := fun _ d => (d, Vector.replicate 16 0)
  incPuncture := fun _ n t => (n, t)
  encrypt := fun _ _ i t => (i, t)
  decrypt := decrypt
  ksTag := fun s => s.2
  ctTag := fun ct => ct.2
  ksTag_incPuncture := by intros; rfl
  ctTag_encrypt := by intros; rfl

theorem laws : PunctLaws crypto := by
  have hnum : ∀ (ts : List Tag) (k : Nat),
      (ts.zipIdx k).map (fun e => UInt32.ofNat (e.2 + 1)) =
      (List.range' k ts.length).map (fun k => UInt32.ofNat (k + 1)) := by
    intro ts
    induction ts with
    | nil => intro k; rfl
    | cons t ts ih =>
      intro k
      simp only [List.zipIdx_cons, List.map_cons, ih, List.length_cons, List.range'_succ]
  have key : ∀ (ts : List Tag) (i : Index) (t : Tag),
      decrypt (properShares crypto () ts) (i, t) = if ts.contains t then none else some i := by
    intro ts i t
    have h1 := hnum ts 0
    rw [← List.range_eq_range'] at h1
    have h2 : ((ts.zipIdx.map
        (fun e => ((UInt32.ofNat (e.2 + 1), e.1) : UInt32 × Tag))).map (·.2)) = ts := by
      rw [List.map_map]
      exact List.zipIdx_map_fst 0 ts
    have h3 : ((ts.zipIdx.map
        (fun e => ((UInt32.ofNat (e.2 + 1), e.1) : UInt32 × Tag))).map (·.1)) =
        (List.range ts.length).map (fun k => UInt32.ofNat (k + 1)) := by
      rw [List.map_map]; exact h1
    have hp : properShares crypto () ts = (UInt32.ofNat ts.length, Vector.replicate 16 0) ::
        ts.zipIdx.map (fun e => ((UInt32.ofNat (e.2 + 1), e.1) : UInt32 × Tag)) := rfl
    rw [hp, decrypt]
    by_cases hc : ts.contains t = true
    · rw [if_pos hc]
      apply if_neg
      rw [h2, hc]
      simp
    · rw [if_neg hc]
      apply if_pos
      rw [h2, h3]
      simpa using hc
  constructor
  · intro pk ts r i t _ ht
    show decrypt (properShares crypto () ts) (i, t) = _
    rw [key, if_neg (by rw [List.contains_iff_mem]; exact ht)]
  · intro pk ts r i t _ ht
    show decrypt (properShares crypto () ts) (i, t) = _
    rw [key, if_pos (by rw [List.contains_iff_mem]; exact ht)]

theorem cut_inj {s t : Str} (k : Nat) (_ : k ≤ 16) (hs : s.length = k) (ht : t.length = k)
    (h : ∀ j, j < k → s[j]?.getD 0 = t[j]?.getD 0) : s = t := by
  apply List.ext_getElem (by omega)
  intro j h1 h2
  have := h j (by omega)
  simpa [h1, h2] using this

theorem cut_get (s : Str) (j : Nat) (hj : j < 16) : (cut s)[j] = s[j]?.getD 0 := by
  simp [cut]

theorem diana_noCollision {V : Type} (v0 : V) (K : List Str) (hK : ∀ w ∈ K, w.length = 1) (n : Nat)
    (hn : n ≤ 256) : Diana.NoCollision (diana v0) (bound K n) := by
  intro s a t b ha hb heq
  have hlen : ∀ s, 0 < bound K n s → s.length = 9 := by
    intro s hs
    unfold bound at hs
    split at hs
    · rename_i hm
      unfold metas at hm
      rw [List.mem_flatMap] at hm
      obtain ⟨w, hw, hm⟩ := hm
      obtain ⟨e, -, rfl⟩ := List.mem_map.mp hm
      simp [hK w hw]
    · omega
  have hs := hlen s (by omega)
  have ht := hlen t (by omega)
  have h1 := bound_le K n s
  have h2 := bound_le K n t
  have heq' : (cut s).set 15 (UInt8.ofNat a) = (cut t).set 15 (UInt8.ofNat b) := by
    have h : Diana.Toy.narrow (Diana.Toy.wide ((cut s).set 15 (UInt8.ofNat a))) =
        Diana.Toy.narrow (Diana.Toy.wide ((cut t).set 15 (UInt8.ofNat b))) := heq
    rwa [Diana.Toy.narrow_wide, Diana.Toy.narrow_wide] at h
  constructor
  · apply cut_inj 9 (by omega) hs ht
    intro j hj
    have := congrArg (fun v : Vector UInt8 16 => v[j]'(by omega)) heq'
    rw [Vector.getElem_set_ne _ _ (by omega), Vector.getElem_set_ne _ _ (by omega),
      cut_get, cut_get] at this
    exact this
  · have := congrArg (fun v : Vector UInt8 16 => v[15]) heq'
    simp only [Vector.getElem_set_self] at this
    have := congrArg UInt8.toNat this
    simp at this
    omega

/-- The instance has no collision on short histories over one-letter keywords. -/
theorem noCollision (K : List Str) (hK : ∀ w ∈ K, w.length = 1) (D : List Index) (n : Nat)
    (hn : n ≤ 256) : NoCollision crypto K D n := by
  refine ⟨diana_noCollision _ K hK n hn, diana_noCollision _ K hK n hn, ?_, ?_⟩
  · intro v hv w hw h
    apply cut_inj 1 (by omega) (hK v hv) (hK w hw)
    intro j hj
    have h' : cut v = cut w := h
    have := congrArg (fun v : Vector UInt8 16 => v[j]'(by omega)) h'
    simp only [cut_get] at this
    exact this
  · intro w _ i _ j _ h
    have h' : cut (keywordDocString w i) = cut (keywordDocString w j) := h
    have : hexFixed 16 i.toNat = hexFixed 16 j.toNat := by
      apply cut_inj 16 (by omega) (by simp) (by simp)
      intro k hk
      have := congrArg (fun v : Vector UInt8 16 => v[k]'(by omega)) h'
      simp only [cut_get, keywordDocString] at this
      rw [List.append_assoc, List.append_assoc,
        List.getElem?_append_left (by simp; omega), List.getElem?_append_left (by simp; omega)] at this
      exact this
    exact BitVec.eq_of_toNat_eq (hexFixed_inj (by have := i.isLt; omega)
      (by have := j.isLt; omega) this)

end Verif.Janus.Toy
