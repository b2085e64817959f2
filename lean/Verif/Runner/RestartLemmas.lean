import Verif.Runner.RestartSpec
import Verif.Runner.MessageProps
import Verif.Runner.SearchRpcProps
import Mathlib.Data.List.Forall2

/-! # Lemmas on clients and services with restarts -/

set_option linter.unusedSectionVars false

namespace Verif.Runner

open Verif RestartSpec

variable {Kw : Type} [DecidableEq Kw]

theorem readKey32_toList (k : Vector UInt8 32) : readKey32 k.toList = some k := by
  unfold readKey32
  rw [dif_pos (by simp)]
  rfl

theorem requests_snoc (L : Log Kw) (w : Kw) (i : Index) (b : Bool) :
    Log.requests (L ++ [(w, i, b)]) = Log.requests L ++ [(w, i)] := by simp [Log.requests]

theorem entries_snoc (L : Log Kw) (w v : Kw) (i : Index) (b : Bool) :
    Log.entries (L ++ [(w, i, b)]) v = Log.entries L v ++ (if w = v then [(i, b)] else []) := by
  by_cases h : w = v <;> simp [Log.entries, h]

theorem delivered_snoc (L : Log Kw) (w v : Kw) (i : Index) (b : Bool) :
    Log.delivered (L ++ [(w, i, b)]) v = Log.delivered L v ++ (if w = v ∧ b = true then [i] else []) := by
  by_cases h : w = v <;> cases b <;> simp [Log.delivered, entries_snoc, h]

/-! ## Sophos -/

theorem search_congr {Kw Seed ST DK : Type} (c c' : Sophos.Crypto Kw Seed ST DK) (he : c.eval = c'.eval)
    (hp : c.prf = c'.prf) (edb : Sophos.Edb) (r : Sophos.SearchReq ST DK) :
    Sophos.search c edb r = Sophos.search c' edb r := by
  have key : ∀ n st acc, Sophos.searchLoop c edb r.derivationKey n st acc =
      Sophos.searchLoop c' edb r.derivationKey n st acc := by
    intro n
    induction n with
    | zero => intro st acc; rfl
    | succ n ih =>
      intro st acc
      simp only [Sophos.searchLoop, Sophos.access, Sophos.genUpdateTokenMasks, he, hp, ih]
  exact key _ _ _

/-- Positions of the delivered insertions -/
def deliveredAt (L : Log Kw) : List Nat := (L.zipIdx.filter (·.1.2.2)).map (·.2)

theorem deliveredAt_snoc (L : Log Kw) (w : Kw) (i : Index) (b : Bool) :
    deliveredAt (L ++ [(w, i, b)]) = deliveredAt L ++ (if b then [L.length] else []) := by
  unfold deliveredAt
  rw [List.zipIdx_append]
  cases b <;> simp

theorem deliveredAt_lt (L : Log Kw) : ∀ k ∈ deliveredAt L, k < L.length := by
  intro k hk
  simp only [deliveredAt, List.mem_map, List.mem_filter] at hk
  obtain ⟨⟨e, j⟩, ⟨h, -⟩, rfl⟩ := hk
  have := List.mem_zipIdx_iff_getElem?.mp h
  exact (List.getElem?_eq_some_iff.mp this).1

theorem expectedDelivered_congr (w : Kw) (H : List (Kw × Index)) (D D' : List Nat)
    (h : ∀ k, k < H.length → (k ∈ D ↔ k ∈ D')) :
    Sophos.Spec.expectedDelivered w H D = Sophos.Spec.expectedDelivered w H D' := by
  unfold Sophos.Spec.expectedDelivered
  congr 2
  apply List.filter_congr
  rintro ⟨e, k⟩ hk
  have hk' := List.mem_zipIdx_iff_getElem?.mp hk
  have hlt : k < H.length := (List.getElem?_eq_some_iff.mp hk').1
  simp [h k hlt]

theorem expectedDelivered_log (w : Kw) (L : Log Kw) :
    Sophos.Spec.expectedDelivered w (Log.requests L) (deliveredAt L) = (Log.delivered L w).reverse := by
  induction L using List.reverseRecOn with
  | nil => rfl
  | append_singleton L e ih =>
    obtain ⟨v, i, b⟩ := e
    have hl : (Log.requests L).length = L.length := by simp [Log.requests]
    rw [requests_snoc, Sophos.expectedDelivered_snoc, delivered_snoc, deliveredAt_snoc, hl,
      expectedDelivered_congr w (Log.requests L) _ (deliveredAt L), ih]
    · by_cases hv : v = w
      · cases b
        · have := deliveredAt_lt L
          have hn : L.length ∉ deliveredAt L := fun h => absurd (this _ h) (by omega)
          simp [hv, hn]
        · simp [hv]
      · simp [hv]
    · intro k hk
      rw [hl] at hk
      cases b
      · simp
      · simp; omega

theorem clientRun_snoc {Seed ST DK : Type} (c : Sophos.Crypto Kw Seed ST DK) (G : List (Kw × Index)) (w : Kw) (i : Index) :
    Sophos.clientRun c Map.empty (G ++ [(w, i)]) =
      ((Sophos.clientRun c Map.empty G).1 ++ [(Sophos.insertionRequest c (Sophos.clientRun c Map.empty G).2 w i).1],
        (Sophos.insertionRequest c (Sophos.clientRun c Map.empty G).2 w i).2) := by
  rw [Sophos.clientRun_eq_assign, Sophos.clientRun_eq_assign, Counter.assign_append]
  simp [Counter.assign, Sophos.insertionRequest]

theorem deliver_lost {Seed ST DK : Type} (c : Sophos.Crypto Kw Seed ST DK) (G : List (Kw × Index)) (D : List Nat) (w : Kw) (i : Index)
    (hD : ∀ k ∈ D, k < G.length) : Sophos.deliver c (G ++ [(w, i)]) D = Sophos.deliver c G D := by
  unfold Sophos.deliver
  rw [clientRun_snoc]
  congr 1
  apply List.filterMap_congr
  intro k hk
  rw [List.getElem?_append_left]
  rw [Sophos.clientRun_length]; exact hD k hk

theorem deliver_next {Seed ST DK : Type} (c : Sophos.Crypto Kw Seed ST DK) (G : List (Kw × Index)) (D : List Nat) (w : Kw) (i : Index)
    (hD : ∀ k ∈ D, k < G.length) :
    Sophos.deliver c (G ++ [(w, i)]) (D ++ [G.length]) = Sophos.serverInsert (Sophos.deliver c G D)
      (Sophos.insertionRequest c (Sophos.clientRun c Map.empty G).2 w i).1 := by
  rw [← deliver_lost c G D w i hD]
  have hl := Sophos.clientRun_length c G
  unfold Sophos.deliver Sophos.serverRun
  rw [List.filterMap_append, List.foldl_append]
  have : (Sophos.clientRun c Map.empty (G ++ [(w, i)])).1[G.length]? =
      some (Sophos.insertionRequest c (Sophos.clientRun c Map.empty G).2 w i).1 := by
    rw [clientRun_snoc, List.getElem?_append_right (by omega), hl]
    simp
  simp [this]

/-- The invariant -/
structure SophosInv {t : Nat} {lib : SophosLib Kw t} (k : SophosKeys lib) (s : SophosWorld lib) (a : World Kw) :
    Prop where
  sk : s.skFile = k.sk
  master : s.masterFile = k.master.toList
  prg : s.prgFile = k.prg.toList
  pk : s.pkFile = lib.publicKey k.sk
  client : s.client = if a.client then some k else none
  server : s.server = if a.server then some (lib.publicKey k.sk) else none
  counters : s.counters = (Sophos.clientRun k.crypto Map.empty (Log.requests a.log)).2
  edb : s.edb = Sophos.deliver k.crypto (Log.requests a.log) (deliveredAt a.log)

theorem sophosInv_created {t : Nat} {lib : SophosLib Kw t} (k : SophosKeys lib) :
    SophosInv k (SophosWorld.created k) World.init :=
  ⟨rfl, rfl, rfl, rfl, rfl, rfl, rfl, rfl⟩

theorem sophosOpenClient_keys {t : Nat} {lib : SophosLib Kw t} (k : SophosKeys lib) :
    sophosOpenClient lib k.sk k.master.toList k.prg.toList = some k := by
  unfold sophosOpenClient
  rw [readKey32_toList, readKey32_toList]
  simp only [dif_pos k.valid]

theorem sophosOpenServer_key {t : Nat} {lib : SophosLib Kw t} (k : SophosKeys lib) :
    sophosOpenServer lib (lib.publicKey k.sk) = some (lib.publicKey k.sk) := by
  unfold sophosOpenServer
  rw [lib.public_valid _ k.valid]; rfl

theorem sophos_insertHandler (edb : Map (Vector UInt8 16) Index) (r : Sophos.UpdateReq) :
    insertHandler edb (ofUpdate r.token r.index) = .ok (Sophos.serverInsert edb r) :=
  (C42_insert_handler edb _).1 r.token rfl

/-- One event keeps the invariant, if the insertions so far fit and have no collision. -/
theorem sophos_step {t : Nat} {lib : SophosLib Kw t} {cfg : Config} (hcfg : SophosThreads cfg.hw cfg.async)
    {garbage : Vector UInt8 t × Vector UInt8 32} (k : SophosKeys lib) {s s' : SophosWorld lib} {a : World Kw}
    {e : Event Kw} {o : Option (List Index)} (hinv : SophosInv k s a)
    (hfit : Sophos.Fits (Log.requests a.log)) (hnc : Sophos.NoCollision k.crypto (Log.requests a.log))
    (h : SophosStep lib cfg garbage s e o s') : SophosInv k s' (a.next e) ∧ SophosOk a e o := by
  obtain ⟨h1, h2, h3, h4, h5, h6, h7, h8⟩ := hinv
  have hl : (Log.requests a.log).length = a.log.length := by simp [Log.requests]
  have hlt : ∀ j ∈ deliveredAt a.log, j < (Log.requests a.log).length := by rw [hl]; exact deliveredAt_lt _
  cases h with
  | insert w i k' pk edb' hc hs hh =>
    have hca : a.client = true := by
      by_contra hne; rw [if_neg hne] at h5; rw [h5] at hc; cases hc
    have hsa : a.server = true := by
      by_contra hne; rw [if_neg hne] at h6; rw [h6] at hs; cases hs
    have hk : k' = k := by rw [hca, if_pos rfl] at h5; rw [h5] at hc; exact (Option.some.inj hc).symm
    subst hk
    rw [sophos_insertHandler] at hh
    have hh := Except.ok.inj hh
    refine ⟨?_, rfl⟩
    have hnext : a.next (.insert w i) = { a with log := a.log ++ [(w, i, true)] } := by
      simp [World.next, hca, hsa]
    rw [hnext]
    refine ⟨h1, h2, h3, h4, h5, h6, ?_, ?_⟩
    · simp only [requests_snoc, clientRun_snoc, h7]
    · rw [← hh]
      simp only [requests_snoc, deliveredAt_snoc, if_true]
      rw [← hl, deliver_next _ _ _ _ _ hlt, h8, h7]
  | insertDown w i k' hc hs =>
    have hca : a.client = true := by
      by_contra hne; rw [if_neg hne] at h5; rw [h5] at hc; cases hc
    have hsa : a.server = false := by
      by_contra hne
      rw [Bool.not_eq_false] at hne
      rw [if_pos hne] at h6; rw [h6] at hs; cases hs
    have hk : k' = k := by rw [hca, if_pos rfl] at h5; rw [h5] at hc; exact (Option.some.inj hc).symm
    subst hk
    refine ⟨?_, rfl⟩
    have hnext : a.next (.insert w i) = { a with log := a.log ++ [(w, i, false)] } := by
      simp [World.next, hca, hsa]
    rw [hnext]
    refine ⟨h1, h2, h3, h4, h5, h6, ?_, ?_⟩
    · simp only [requests_snoc, clientRun_snoc, h7]
    · simp only [requests_snoc, deliveredAt_snoc, Bool.false_eq_true, if_false, List.append_nil]
      rw [deliver_lost _ _ _ _ _ hlt, h8]
  | insertStopped w i hc =>
    have hca : a.client = false := by
      by_contra hne
      rw [Bool.not_eq_false] at hne
      rw [if_pos hne] at h5; rw [h5] at hc; cases hc
    refine ⟨?_, rfl⟩
    have hnext : a.next (.insert w i) = a := by simp [World.next, hca]
    rw [hnext]
    exact ⟨h1, h2, h3, h4, h5, h6, h7, h8⟩
  | cutStored w i ck sk k' pk edb' hc hs hh =>
    have hca : a.client = true := by
      by_contra hne; rw [if_neg hne] at h5; rw [h5] at hc; cases hc
    have hsa : a.server = true := by
      by_contra hne; rw [if_neg hne] at h6; rw [h6] at hs; cases hs
    have hk : k' = k := by rw [hca, if_pos rfl] at h5; rw [h5] at hc; exact (Option.some.inj hc).symm
    subst hk
    rw [sophos_insertHandler] at hh
    have hh := Except.ok.inj hh
    refine ⟨?_, rfl⟩
    have hnext : a.next (.cut w i true ck sk) = ⟨!ck, !sk, a.log ++ [(w, i, true)]⟩ := by
      simp [World.next, hca, hsa]
    rw [hnext]
    rw [hca, if_pos rfl] at h5
    rw [hsa, if_pos rfl] at h6
    refine ⟨h1, h2, h3, h4, ?_, ?_, ?_, ?_⟩
    · cases ck <;> simp [h5]
    · cases sk <;> simp [h6]
    · simp only [requests_snoc, clientRun_snoc, h7]
    · rw [← hh]
      simp only [requests_snoc, deliveredAt_snoc, if_true]
      rw [← hl, deliver_next _ _ _ _ _ hlt, h8, h7]
  | cutLost w i stored ck sk k' hc hs =>
    have hca : a.client = true := by
      by_contra hne; rw [if_neg hne] at h5; rw [h5] at hc; cases hc
    have hsa : (stored && a.server) = false := by
      rcases hs with rfl | hs
      · rfl
      · by_contra hne
        rw [Bool.not_eq_false, Bool.and_eq_true] at hne
        rw [if_pos hne.2] at h6; rw [h6] at hs; cases hs
    have hk : k' = k := by rw [hca, if_pos rfl] at h5; rw [h5] at hc; exact (Option.some.inj hc).symm
    subst hk
    refine ⟨?_, rfl⟩
    have hnext : a.next (.cut w i stored ck sk) = ⟨!ck, a.server && !sk, a.log ++ [(w, i, false)]⟩ := by
      simp only [World.next, hca, hsa, if_true, Bool.true_and]
    rw [hnext]
    rw [hca, if_pos rfl] at h5
    refine ⟨h1, h2, h3, h4, ?_, ?_, ?_, ?_⟩
    · cases ck <;> simp [h5]
    · cases sk <;> simp [h6]
    · simp only [requests_snoc, clientRun_snoc, h7]
    · simp only [requests_snoc, deliveredAt_snoc, Bool.false_eq_true, if_false, List.append_nil]
      rw [deliver_lost _ _ _ _ _ hlt, h8]
  | cutStopped w i stored ck sk hc =>
    have hca : a.client = false := by
      by_contra hne
      rw [Bool.not_eq_false] at hne
      rw [if_pos hne] at h5; rw [h5] at hc; cases hc
    refine ⟨?_, rfl⟩
    have hnext : a.next (.cut w i stored ck sk) = a := by simp [World.next, hca]
    rw [hnext]
    exact ⟨h1, h2, h3, h4, h5, h6, h7, h8⟩
  | search w k' pk res hc hs hh =>
    have hca : a.client = true := by
      by_contra hne; rw [if_neg hne] at h5; rw [h5] at hc; cases hc
    have hsa : a.server = true := by
      by_contra hne; rw [if_neg hne] at h6; rw [h6] at hs; cases hs
    have hk : k' = k := by rw [hca, if_pos rfl] at h5; rw [h5] at hc; exact (Option.some.inj hc).symm
    subst hk
    have hpk : pk = lib.publicKey k'.sk := by
      rw [hsa, if_pos rfl] at h6; rw [h6] at hs; exact (Option.some.inj hs).symm
    subst hpk
    refine ⟨⟨h1, h2, h3, h4, h5, h6, h7, h8⟩, hca, hsa, ?_⟩
    obtain ⟨token, key, n, hmes, c, hce, hcp, tok, htok, hrep⟩ := hh
    rw [(C42_roundtrip_partial (CK := Unit) t cfg.debug _ _ _ (Vector.replicate 16 0) 0 (fun _ => [])
      (fun _ => some ()) (fun _ => rfl) (Vector.replicate 32 0) ()).1] at hmes
    have hmes := Except.ok.inj hmes
    simp only [Prod.mk.injEq] at hmes
    obtain ⟨ht, hkey, hn⟩ := hmes
    have hperm := (C46_sophos_partial c cfg.hw cfg.async hcfg s.edb ⟨tok, key, n⟩).2 res hrep
    have heq : Sophos.search c s.edb ⟨tok, key, n⟩ =
        Sophos.search k'.crypto s.edb (Sophos.searchRequest k'.crypto garbage s.counters w) := by
      rw [search_congr c k'.crypto hce hcp]
      by_cases h0 : (Sophos.searchRequest k'.crypto garbage s.counters w).addCount = 0
      · unfold Sophos.search
        rw [← hn, h0]
        rfl
      · rw [if_neg h0] at ht
        rw [htok _ ht.symm, ← hkey, ← hn]
    rw [heq, h8, h7, Sophos.C04_search_delivered _ _ _ _ hfit hnc, expectedDelivered_log] at hperm
    exact hperm.trans (List.reverse_perm _)
  | searchDown w hd =>
    refine ⟨⟨h1, h2, h3, h4, h5, h6, h7, h8⟩, ?_⟩
    rintro ⟨hca, hsa⟩
    rw [hca, if_pos rfl] at h5
    rw [hsa, if_pos rfl] at h6
    rcases hd with hd | hd
    · rw [h5] at hd; cases hd
    · rw [h6] at hd; cases hd
  | startClient hc =>
    refine ⟨⟨h1, h2, h3, h4, ?_, h6, h7, h8⟩, rfl⟩
    simp only [h1, h2, h3, sophosOpenClient_keys]; rfl
  | startClientAgain hc =>
    refine ⟨⟨h1, h2, h3, h4, ?_, h6, h7, h8⟩, rfl⟩
    by_cases hca : a.client = true
    · simp only [World.next, if_true]; rw [h5, if_pos hca]
    · rw [if_neg hca] at h5; exact absurd h5 hc
  | stopClient => exact ⟨⟨h1, h2, h3, h4, rfl, h6, h7, h8⟩, rfl⟩
  | startServer hc =>
    refine ⟨⟨h1, h2, h3, h4, h5, ?_, h7, h8⟩, rfl⟩
    simp only [h4, sophosOpenServer_key]; rfl
  | startServerAgain hc =>
    refine ⟨⟨h1, h2, h3, h4, h5, ?_, h7, h8⟩, rfl⟩
    by_cases hsa : a.server = true
    · simp only [World.next, if_true]; rw [h6, if_pos hsa]
    · rw [if_neg hsa] at h6; exact absurd h6 hc
  | stopServer => exact ⟨⟨h1, h2, h3, h4, h5, rfl, h7, h8⟩, rfl⟩

/-- Every event is possible. -/
theorem sophos_progress {t : Nat} {lib : SophosLib Kw t} {cfg : Config} (hcfg : SophosThreads cfg.hw cfg.async)
    (garbage : Vector UInt8 t × Vector UInt8 32) (k : SophosKeys lib) {s : SophosWorld lib} {a : World Kw}
    (hinv : SophosInv k s a) (e : Event Kw) : ∃ o s', SophosStep lib cfg garbage s e o s' := by
  obtain ⟨h1, h2, h3, h4, h5, h6, h7, h8⟩ := hinv
  cases e with
  | insert w i =>
    cases hc : s.client with
    | none => exact ⟨_, _, .insertStopped s w i hc⟩
    | some k' =>
      cases hs : s.server with
      | none => exact ⟨_, _, .insertDown s w i k' hc hs⟩
      | some pk => exact ⟨_, _, .insert s w i k' pk _ hc hs (sophos_insertHandler _ _)⟩
  | cut w i stored ck sk =>
    cases hc : s.client with
    | none => exact ⟨_, _, .cutStopped s w i stored ck sk hc⟩
    | some k' =>
      cases hs : s.server with
      | none => exact ⟨_, _, .cutLost s w i stored ck sk k' hc (.inr hs)⟩
      | some pk =>
        cases stored with
        | false => exact ⟨_, _, .cutLost s w i false ck sk k' hc (.inl rfl)⟩
        | true => exact ⟨_, _, .cutStored s w i ck sk k' pk _ hc hs (sophos_insertHandler _ _)⟩
  | search w =>
    cases hc : s.client with
    | none => exact ⟨_, _, .searchDown s w (.inl hc)⟩
    | some k' =>
      cases hs : s.server with
      | none => exact ⟨_, _, .searchDown s w (.inr hs)⟩
      | some pk =>
        have hpk : pk = lib.publicKey k.sk := by
          rw [hs] at h6
          split at h6
          · exact Option.some.inj h6
          · cases h6
        subst hpk
        obtain ⟨⟨res, hres⟩, -⟩ := C46_sophos_partial k.crypto cfg.hw cfg.async hcfg s.edb
          (Sophos.searchRequest k'.crypto garbage s.counters w)
        refine ⟨some res, s, .search s w k' _ res hc hs ⟨_, _, _,
          (C42_roundtrip_partial (CK := Unit) t cfg.debug _ _ _ (Vector.replicate 16 0) 0 (fun _ => [])
            (fun _ => some ()) (fun _ => rfl) (Vector.replicate 32 0) ()).1, k.crypto, rfl, rfl,
          (Sophos.searchRequest k'.crypto garbage s.counters w).token, ?_, hres⟩⟩
        intro x hx
        split at hx
        · cases hx
        · exact Option.some.inj hx
  | startClient =>
    by_cases hc : s.client = none
    · exact ⟨_, _, .startClient s hc⟩
    · exact ⟨_, _, .startClientAgain s hc⟩
  | stopClient => exact ⟨_, _, .stopClient s⟩
  | startServer =>
    by_cases hc : s.server = none
    · exact ⟨_, _, .startServer s hc⟩
    · exact ⟨_, _, .startServerAgain s hc⟩
  | stopServer => exact ⟨_, _, .stopServer s⟩

/-- The log only grows. -/
theorem next_log (a : World Kw) (e : Event Kw) : ∃ M, (a.next e).log = a.log ++ M := by
  cases e with
  | insert w i =>
    by_cases h : a.client = true
    · exact ⟨[(w, i, a.server)], by simp [World.next, h]⟩
    · exact ⟨[], by simp [World.next, h]⟩
  | cut w i stored ck sk =>
    by_cases h : a.client = true
    · exact ⟨[(w, i, stored && a.server)], by simp [World.next, h]⟩
    · exact ⟨[], by simp [World.next, h]⟩
  | _ => exact ⟨[], by simp [World.next]⟩

theorem final_log (a : World Kw) (es : List (Event Kw)) : ∃ M, (final a es).log = a.log ++ M := by
  induction es generalizing a with
  | nil => exact ⟨[], by simp [final]⟩
  | cons e es ih =>
    obtain ⟨M, hM⟩ := next_log a e
    obtain ⟨M', hM'⟩ := ih (a.next e)
    exact ⟨M ++ M', by rw [← List.append_assoc, ← hM, ← hM']; rfl⟩

theorem fits_prefix {L M : Log Kw} (h : Sophos.Fits (Log.requests (L ++ M))) : Sophos.Fits (Log.requests L) := by
  intro w
  have := h w
  simp only [Log.requests, Sophos.Spec.docs, List.map_append, List.filter_append, List.length_append] at this ⊢
  omega

theorem noCollision_prefix {Seed ST DK : Type} {c : Sophos.Crypto Kw Seed ST DK} {L M : Log Kw}
    (h : Sophos.NoCollision c (Log.requests (L ++ M))) : Sophos.NoCollision c (Log.requests L) := by
  intro w x v y hx hy
  refine h w x v y ?_ ?_
  · simp only [Log.requests, Sophos.Spec.docs, List.map_append, List.filter_append, List.length_append] at hx ⊢
    omega
  · simp only [Log.requests, Sophos.Spec.docs, List.map_append, List.filter_append, List.length_append] at hy ⊢
    omega

/-! ## Diana -/

/-- The entries of the database do not depend on the keys of the client. -/
theorem parallelRun_server (lib : DianaLib Kw) (m k : Vector UInt8 32) (edb : Diana.Edb Index) (kt kt' : Vector UInt8 32)
    (ck : lib.CK) (n : UInt32) (tc : UInt8) (trace : List (Nat × Index × Nat)) (edb' : Diana.Edb Index) :
    Diana.ParallelRun lib.server edb ⟨kt, ck, n⟩ tc false trace edb' ↔
      Diana.ParallelRun (lib.crypto m k) edb ⟨kt', ck, n⟩ tc false trace edb' := by
  have hstep : ∀ (m k m' k' : Vector UInt8 32) s s', Diana.ScanStep (lib.crypto m k) false s s' →
      Diana.ScanStep (lib.crypto m' k') false s s' := by
    intro m k m' k' s s' h
    cases h with
    | miss t i leaf rest h hm => exact .miss t i leaf rest h hm
    | hit t i leaf rest v h hm hd => exact .hit t i leaf rest v h hm hd
    | hitDelete t i leaf rest v h hm hd => exact .hitDelete t i leaf rest v h hm hd
    | remove t i v key rest h => exact .remove t i v key rest h
  constructor
  · rintro ⟨Ls, s, hj, hs, hd, ht, he⟩
    exact ⟨Ls, s, hj, Relation.ReflTransGen.mono (hstep _ _ _ _) _ _ hs, hd, ht, he⟩
  · rintro ⟨Ls, s, hj, hs, hd, ht, he⟩
    exact ⟨Ls, s, hj, Relation.ReflTransGen.mono (hstep _ _ _ _) _ _ hs, hd, ht, he⟩

theorem searchLoop_server (lib : DianaLib Kw) (m k m' k' : Vector UInt8 32) (l : List (Nat × Diana.Leaf)) :
    ∀ edb, Diana.searchLoop (lib.crypto m k) false edb l = Diana.searchLoop (lib.crypto m' k') false edb l := by
  induction l with
  | nil => intro edb; rfl
  | cons e l ih =>
    intro edb
    simp only [Diana.searchLoop, ih]
    rfl

theorem search_server (lib : DianaLib Kw) (m k : Vector UInt8 32) (edb : Diana.Edb Index) (kt kt' : Vector UInt8 32)
    (ck : lib.CK) (n : UInt32) :
    Diana.search lib.server edb ⟨kt, ck, n⟩ false = Diana.search (lib.crypto m k) edb ⟨kt', ck, n⟩ false := by
  unfold Diana.search
  by_cases hn : n = 0
  · simp [hn]
  · simp only [hn, if_false]
    have : (fun leaves => Diana.searchLoop lib.server false edb leaves) =
        (fun leaves => Diana.searchLoop (lib.crypto m k) false edb leaves) := by
      funext l; exact searchLoop_server lib _ _ _ _ l edb
    rw [this]
    rfl

theorem dianaReplies_server (lib : DianaLib Kw) (m k : Vector UInt8 32) (hw : Nat) (async : Bool)
    (edb : Diana.Edb Index) (kt kt' : Vector UInt8 32) (ck : lib.CK) (n : UInt32) (res : List Index) :
    DianaReplies lib.server hw async edb ⟨kt, ck, n⟩ res ↔ DianaReplies (lib.crypto m k) hw async edb ⟨kt', ck, n⟩ res := by
  unfold DianaReplies
  simp only [parallelRun_server lib m k edb kt kt', search_server lib m k edb kt kt']

/-- The slots of a keyword -/
def slots (L : Log Kw) (w : Kw) : List (Option Index) := (L.entries w).map (fun e => if e.2 then some e.1 else none)

theorem slots_snoc (L : Log Kw) (w : Kw) (i : Index) (b : Bool) :
    slots (L ++ [(w, i, b)]) = Diana.setSlots (slots L) w (slots L w ++ [if b then some i else none]) := by
  funext v
  unfold slots Diana.setSlots
  rw [entries_snoc]
  by_cases h : w = v
  · subst h; simp
  · simp [h, Ne.symm h]

theorem slots_filterMap (L : Log Kw) (w : Kw) : (slots L w).filterMap id = L.delivered w := by
  unfold slots Log.delivered
  induction L.entries w with
  | nil => rfl
  | cons e l ih =>
    obtain ⟨i, b⟩ := e
    cases b <;> simp [← ih]

theorem slots_length (L : Log Kw) (w : Kw) : (slots L w).length = (L.entries w).length := by simp [slots]

/-- The invariant -/
structure DianaInv (lib : DianaLib Kw) (k : DianaKeys) (B : Kw → Nat) (s : DianaWorld Kw) (a : World Kw) : Prop where
  master : s.masterFile = k.master.toList
  kwMaster : s.kwMasterFile = k.kwMaster.toList
  wrapping : s.wrappingFile = k.wrapping.toList
  serverFile : s.serverFile = k.wrapping.toList
  client : s.client = if a.client then some k else none
  server : s.server = if a.server then some k.wrapping else none
  slots : Diana.SlotInv (lib.crypto k.master k.kwMaster) B ⟨s.counters, s.edb⟩ (slots a.log)

theorem dianaInv_created (lib : DianaLib Kw) (k : DianaKeys) (B : Kw → Nat) :
    DianaInv lib k B (DianaWorld.created k) World.init :=
  ⟨rfl, rfl, rfl, rfl, rfl, rfl, Diana.slotInv_init _ _⟩

theorem dianaOpenClient_keys (k : DianaKeys) :
    dianaOpenClient k.master.toList k.kwMaster.toList k.wrapping.toList = some k := by
  unfold dianaOpenClient
  rw [readKey32_toList, readKey32_toList, readKey32_toList]

theorem dianaAddCount (c : Diana.Crypto Kw Index) (m : Map Kw UInt32) (w : Kw) (n : Nat)
    (hm : m w = Counter.counterOf n) (hn : n < 2 ^ 32) : (Diana.searchRequest c m w).addCount.toNat = n := by
  unfold Diana.searchRequest Counter.get
  rw [hm]
  unfold Counter.counterOf
  by_cases h0 : n = 0
  · simp [h0]
  · have h1 : (UInt32.ofNat (n - 1)).toNat = n - 1 := by simp [UInt32.toNat_ofNat']; omega
    simp only [h0, if_false]
    rw [UInt32.toNat_add, h1]; simp; omega

/-- The replies of the service to a request of the client -/
theorem diana_replies (c : Diana.Crypto Kw Index) (B : Kw → Nat) (s : Diana.Sys Kw Index) (L : Log Kw)
    (hinv : Diana.SlotInv c B s (slots L)) (w : Kw) (hB : (L.entries w).length ≤ B w) (hB2 : B w < 2 ^ 32)
    (hw : Nat) (async : Bool) (hhw : async = true → hw % 256 ≠ 0) :
    (∃ res, DianaReplies c hw async s.edb (Diana.searchRequest c s.counters w) res) ∧
    ∀ res, DianaReplies c hw async s.edb (Diana.searchRequest c s.counters w) res →
      if async then res.Perm (L.delivered w) else res = (L.entries w).map (fun e => if e.2 then e.1 else 0) := by
  have hlen := slots_length L w
  have hcnt := dianaAddCount c s.counters w _ (hinv.counters w) (by omega)
  cases async with
  | true =>
    obtain ⟨hex, hall⟩ := C46_diana_partial c hw (hhw rfl) s.edb s.counters w
    refine ⟨hex, fun res h => ?_⟩
    obtain ⟨res', h1, h2⟩ := hall res h
    rw [Diana.search_request c s.edb s.counters w _ (hinv.counters w) (by omega), Diana.searchLoop_keep] at h1
    have h1 := Option.some.inj h1
    simp only [Prod.mk.injEq] at h1
    rw [if_pos rfl, ← slots_filterMap, ← Diana.results_slots c B s (slots L) hinv w (by omega), h1.1]
    exact h2
  | false =>
    obtain ⟨trace, edb', hr⟩ := Diana.C08_terminates c s.edb s.counters w 8 (by decide) false
    have hvec : ∀ trace edb', Diana.ParallelRun c s.edb (Diana.searchRequest c s.counters w) 8 false trace edb' →
        Diana.vectorResult 0 (Diana.searchRequest c s.counters w).addCount
          (List.replicate (Diana.searchRequest c s.counters w).addCount.toNat 0) trace =
          (L.entries w).map (fun e => if e.2 then e.1 else 0) := by
      intro trace edb' h
      obtain ⟨hl, hsl⟩ := Diana.vector_slots c s.edb s.counters w 8 (by decide) false (by simp) trace edb' 0
        (List.replicate (Diana.searchRequest c s.counters w).addCount.toNat 0) h
      rw [List.length_replicate, Nat.max_self] at hl
      apply List.ext_getElem?
      intro i
      by_cases hi : i < (L.entries w).length
      · rw [hsl i (by omega)]
        have he := hinv.edb w i (by omega)
        unfold Diana.updateToken at he
        simp only [Diana.lookup, he]
        have hs : (slots L w)[i]? = some (if ((L.entries w)[i]).2 then some ((L.entries w)[i]).1 else none) := by
          simp [slots, hi]
        rw [hs, List.getElem?_replicate_of_lt (by rw [hcnt]; omega)]
        simp only [List.getElem?_map, List.getElem?_eq_getElem hi, Option.map_some]
        by_cases hb : ((L.entries w)[i]).2 = true
        · simp [hb, c.xor_xor]
        · simp [hb]
      · rw [List.getElem?_eq_none (by rw [hl, hcnt]; omega), List.getElem?_eq_none (by simp; omega)]
    unfold DianaReplies
    simp only [Bool.false_eq_true, if_false]
    split
    · rename_i hz
      refine ⟨⟨_, rfl⟩, ?_⟩
      rintro res rfl
      rw [hz] at hcnt
      have : (L.entries w) = [] := List.length_eq_zero_iff.mp (by rw [← hlen, ← hcnt]; rfl)
      rw [this]; rfl
    · exact ⟨⟨_, trace, edb', hr, rfl⟩, fun res ⟨t, e, h, hres⟩ => by rw [hres, hvec _ _ h]⟩

theorem diana_serve (lib : DianaLib Kw) (cfg : Config) (k : DianaKeys) (nonce : lib.Nonce) (edb : Diana.Edb Index)
    (r : Diana.SearchReq (lib.crypto k.master k.kwMaster)) (res : List Index) :
    DianaServe lib cfg k.wrapping edb (ofDianaSearch (lib.wrap k.wrapping nonce) r.kwToken r.rcprf r.addCount) res ↔
      DianaReplies (lib.crypto k.master k.kwMaster) cfg.hw cfg.async edb r res := by
  unfold DianaServe
  have hconv := (C42_roundtrip_partial (CK := lib.CK) 0 false #v[] (Vector.replicate 32 0) r.addCount
    (Vector.replicate 16 0) 0 (lib.wrap k.wrapping nonce) (lib.unwrap k.wrapping)
    (fun ck => lib.unwrap_wrap _ _ ck) r.kwToken r.rcprf).2.2
  constructor
  · rintro ⟨q, hq, kt, hrep⟩
    rw [hconv] at hq
    obtain rfl := Except.ok.inj hq
    exact (dianaReplies_server lib k.master k.kwMaster cfg.hw cfg.async edb kt r.kwToken r.rcprf r.addCount res).mp hrep
  · intro h
    exact ⟨_, hconv, r.kwToken,
      (dianaReplies_server lib k.master k.kwMaster cfg.hw cfg.async edb r.kwToken r.kwToken r.rcprf r.addCount res).mpr h⟩

theorem diana_insertHandler (edb : Map (Vector UInt8 16) Index) (r : Diana.UpdateReq Index) :
    insertHandler edb (ofUpdate r.token r.index) = .ok (Diana.serverInsert edb r) :=
  (C42_insert_handler edb _).1 r.token rfl

/-- One event keeps the invariant, if the log stays below the bound. -/
theorem diana_step {lib : DianaLib Kw} {cfg : Config} (hcfg : cfg.async = true → cfg.hw % 256 ≠ 0) (k : DianaKeys)
    (B : Kw → Nat) (hB2 : ∀ w, B w < 2 ^ 32) (hnc : Diana.NoCollision (lib.crypto k.master k.kwMaster) B)
    {s s' : DianaWorld Kw} {a : World Kw} {e : Event Kw} {o : Option (List Index)} (hinv : DianaInv lib k B s a)
    (hB : ∀ w, (Log.entries (a.next e).log w).length ≤ B w)
    (h : DianaStep lib cfg s e o s') : DianaInv lib k B s' (a.next e) ∧ DianaOk cfg.async a e o := by
  obtain ⟨h1, h2, h3, h4, h5, h6, h7⟩ := hinv
  have hB0 : ∀ w, (Log.entries a.log w).length ≤ B w := by
    intro w
    obtain ⟨M, hM⟩ := next_log a e
    have := hB w
    rw [hM] at this
    simp only [Log.entries, List.filter_append, List.map_append, List.length_append] at this ⊢
    omega
  have hup : ∀ {k'}, s.client = some k' → a.client = true ∧ k' = k := by
    intro k' hc
    rw [hc] at h5
    split at h5
    · rename_i hca; exact ⟨hca, Option.some.inj h5⟩
    · cases h5
  have hdown : s.client = none → a.client = false := by
    intro hc
    rw [hc] at h5
    split at h5
    · cases h5
    · rename_i hca; exact Bool.eq_false_iff.mpr hca
  have hsup : ∀ {k'}, s.server = some k' → a.server = true ∧ k' = k.wrapping := by
    intro k' hc
    rw [hc] at h6
    split at h6
    · rename_i hca; exact ⟨hca, Option.some.inj h6⟩
    · cases h6
  have hsdown : s.server = none → a.server = false := by
    intro hc
    rw [hc] at h6
    split at h6
    · cases h6
    · rename_i hca; exact Bool.eq_false_iff.mpr hca
  have hcnt : ∀ w, (Diana.searchRequest (lib.crypto k.master k.kwMaster) s.counters w).addCount = 0 ↔
      Log.entries a.log w = [] := by
    intro w
    have hl := slots_length a.log w
    have h0 := hB0 w
    have h2 := hB2 w
    have := dianaAddCount (lib.crypto k.master k.kwMaster) s.counters w _ (h7.counters w) (by omega)
    rw [hl] at this
    rw [← List.length_eq_zero_iff, ← this]
    constructor
    · intro h; rw [h]; rfl
    · intro h; exact UInt32.toNat_inj.mp h
  cases h with
  | insert w i k' key edb' hc hs hh =>
    obtain ⟨hca, rfl⟩ := hup hc
    obtain ⟨hsa, -⟩ := hsup hs
    rw [diana_insertHandler] at hh
    have hh := Except.ok.inj hh
    have hnext : a.next (.insert w i) = { a with log := a.log ++ [(w, i, true)] } := by
      simp [World.next, hca, hsa]
    rw [hnext] at hB ⊢
    refine ⟨⟨h1, h2, h3, h4, h5, h6, ?_⟩, rfl⟩
    rw [← hh]
    have hlt : (slots a.log w).length < B w := by
      have := hB w
      simp only [entries_snoc, if_pos, List.length_append, List.length_cons, List.length_nil] at this
      rw [slots_length]; omega
    have := Diana.slotInv_insert _ B hnc ⟨s.counters, s.edb⟩ (slots a.log) h7 w i hlt (hB2 w)
    simpa only [slots_snoc, if_true] using this
  | insertDown w i k' hc hs =>
    obtain ⟨hca, rfl⟩ := hup hc
    have hsa := hsdown hs
    have hnext : a.next (.insert w i) = { a with log := a.log ++ [(w, i, false)] } := by
      simp [World.next, hca, hsa]
    rw [hnext] at hB ⊢
    refine ⟨⟨h1, h2, h3, h4, h5, h6, ?_⟩, rfl⟩
    have := Diana.slotInv_lost _ B ⟨s.counters, s.edb⟩ (slots a.log) h7 w i
    simpa only [slots_snoc, Bool.false_eq_true, if_false] using this
  | insertStopped w i hc =>
    have hca := hdown hc
    have hnext : a.next (.insert w i) = a := by simp [World.next, hca]
    rw [hnext]
    exact ⟨⟨h1, h2, h3, h4, h5, h6, h7⟩, rfl⟩
  | cutStored w i ck sk k' key edb' hc hs hh =>
    obtain ⟨hca, rfl⟩ := hup hc
    obtain ⟨hsa, -⟩ := hsup hs
    rw [diana_insertHandler] at hh
    have hh := Except.ok.inj hh
    have hnext : a.next (.cut w i true ck sk) = ⟨!ck, !sk, a.log ++ [(w, i, true)]⟩ := by
      simp [World.next, hca, hsa]
    rw [hnext] at hB ⊢
    rw [hca, if_pos rfl] at h5
    rw [hsa, if_pos rfl] at h6
    refine ⟨⟨h1, h2, h3, h4, ?_, ?_, ?_⟩, rfl⟩
    · cases ck <;> simp [h5]
    · cases sk <;> simp [h6]
    rw [← hh]
    have hlt : (slots a.log w).length < B w := by
      have := hB w
      simp only [entries_snoc, if_pos, List.length_append, List.length_cons, List.length_nil] at this
      rw [slots_length]; omega
    have := Diana.slotInv_insert _ B hnc ⟨s.counters, s.edb⟩ (slots a.log) h7 w i hlt (hB2 w)
    simpa only [slots_snoc, if_true] using this
  | cutLost w i stored ck sk k' hc hs =>
    obtain ⟨hca, rfl⟩ := hup hc
    have hsa : (stored && a.server) = false := by
      rcases hs with rfl | hs
      · rfl
      · rw [hsdown hs, Bool.and_false]
    have hnext : a.next (.cut w i stored ck sk) = ⟨!ck, a.server && !sk, a.log ++ [(w, i, false)]⟩ := by
      simp only [World.next, hca, hsa, if_true, Bool.true_and]
    rw [hnext] at hB ⊢
    rw [hca, if_pos rfl] at h5
    refine ⟨⟨h1, h2, h3, h4, ?_, ?_, ?_⟩, rfl⟩
    · cases ck <;> simp [h5]
    · cases sk <;> simp [h6]
    have := Diana.slotInv_lost _ B ⟨s.counters, s.edb⟩ (slots a.log) h7 w i
    simpa only [slots_snoc, Bool.false_eq_true, if_false] using this
  | cutStopped w i stored ck sk hc =>
    have hca := hdown hc
    have hnext : a.next (.cut w i stored ck sk) = a := by simp [World.next, hca]
    rw [hnext]
    exact ⟨⟨h1, h2, h3, h4, h5, h6, h7⟩, rfl⟩
  | searchEmpty w k' hc h0 =>
    obtain ⟨hca, rfl⟩ := hup hc
    have he := (hcnt w).mp h0
    refine ⟨⟨h1, h2, h3, h4, h5, h6, h7⟩, hca, .inr he, ?_⟩
    simp [Log.delivered, he]
  | search w k' key nonce res hc hs hn hh =>
    obtain ⟨hca, rfl⟩ := hup hc
    obtain ⟨hsa, rfl⟩ := hsup hs
    refine ⟨⟨h1, h2, h3, h4, h5, h6, h7⟩, hca, .inl hsa, ?_⟩
    rw [diana_serve] at hh
    exact (diana_replies _ B ⟨s.counters, s.edb⟩ a.log h7 w (hB0 w) (hB2 w) cfg.hw cfg.async hcfg).2 res hh
  | searchDown w k' hc hs hn =>
    obtain ⟨hca, rfl⟩ := hup hc
    refine ⟨⟨h1, h2, h3, h4, h5, h6, h7⟩, ?_⟩
    rintro ⟨-, hsa | he⟩
    · rw [hsdown hs] at hsa; cases hsa
    · exact hn ((hcnt w).mpr he)
  | searchStopped w hc =>
    refine ⟨⟨h1, h2, h3, h4, h5, h6, h7⟩, ?_⟩
    rintro ⟨hca, -⟩
    rw [hdown hc] at hca; cases hca
  | startClient hc =>
    refine ⟨⟨h1, h2, h3, h4, ?_, h6, h7⟩, rfl⟩
    simp only [h1, h2, h3, dianaOpenClient_keys]; rfl
  | startClientAgain hc =>
    refine ⟨⟨h1, h2, h3, h4, ?_, h6, h7⟩, rfl⟩
    by_cases hca : a.client = true
    · simp only [World.next, if_true]; rw [h5, if_pos hca]
    · rw [if_neg hca] at h5; exact absurd h5 hc
  | stopClient => exact ⟨⟨h1, h2, h3, h4, rfl, h6, h7⟩, rfl⟩
  | startServer hc =>
    refine ⟨⟨h1, h2, h3, h4, h5, ?_, h7⟩, rfl⟩
    simp only [h4, readKey32_toList]; rfl
  | startServerAgain hc =>
    refine ⟨⟨h1, h2, h3, h4, h5, ?_, h7⟩, rfl⟩
    by_cases hsa : a.server = true
    · simp only [World.next, if_true]; rw [h6, if_pos hsa]
    · rw [if_neg hsa] at h6; exact absurd h6 hc
  | stopServer => exact ⟨⟨h1, h2, h3, h4, h5, rfl, h7⟩, rfl⟩

/-- Every event is possible. -/
theorem diana_progress {lib : DianaLib Kw} {cfg : Config} (hcfg : cfg.async = true → cfg.hw % 256 ≠ 0) (k : DianaKeys)
    (B : Kw → Nat) (hB2 : ∀ w, B w < 2 ^ 32) {s : DianaWorld Kw} {a : World Kw} (hinv : DianaInv lib k B s a)
    (hB : ∀ w, (Log.entries a.log w).length ≤ B w) (e : Event Kw) : ∃ o s', DianaStep lib cfg s e o s' := by
  obtain ⟨h1, h2, h3, h4, h5, h6, h7⟩ := hinv
  cases e with
  | insert w i =>
    cases hc : s.client with
    | none => exact ⟨_, _, .insertStopped s w i hc⟩
    | some k' =>
      cases hs : s.server with
      | none => exact ⟨_, _, .insertDown s w i k' hc hs⟩
      | some pk => exact ⟨_, _, .insert s w i k' pk _ hc hs (diana_insertHandler _ _)⟩
  | cut w i stored ck sk =>
    cases hc : s.client with
    | none => exact ⟨_, _, .cutStopped s w i stored ck sk hc⟩
    | some k' =>
      cases hs : s.server with
      | none => exact ⟨_, _, .cutLost s w i stored ck sk k' hc (.inr hs)⟩
      | some pk =>
        cases stored with
        | false => exact ⟨_, _, .cutLost s w i false ck sk k' hc (.inl rfl)⟩
        | true => exact ⟨_, _, .cutStored s w i ck sk k' pk _ hc hs (diana_insertHandler _ _)⟩
  | search w =>
    cases hc : s.client with
    | none => exact ⟨_, _, .searchStopped s w hc⟩
    | some k' =>
      have hk : k' = k := by
        rw [hc] at h5
        split at h5
        · exact Option.some.inj h5
        · cases h5
      subst hk
      by_cases h0 : (Diana.searchRequest (lib.crypto k'.master k'.kwMaster) s.counters w).addCount = 0
      · exact ⟨_, _, .searchEmpty s w k' hc h0⟩
      · cases hs : s.server with
        | none => exact ⟨_, _, .searchDown s w k' hc hs h0⟩
        | some key =>
          have hk : key = k'.wrapping := by
            rw [hs] at h6
            split at h6
            · exact Option.some.inj h6
            · cases h6
          subst hk
          obtain ⟨res, hres⟩ := (diana_replies _ B ⟨s.counters, s.edb⟩ a.log h7 w (hB w) (hB2 w) cfg.hw cfg.async hcfg).1
          exact ⟨_, _, .search s w k' _ lib.nonce res hc hs h0 ((diana_serve lib cfg k' lib.nonce s.edb _ res).mpr hres)⟩
  | startClient =>
    by_cases hc : s.client = none
    · exact ⟨_, _, .startClient s hc⟩
    · exact ⟨_, _, .startClientAgain s hc⟩
  | stopClient => exact ⟨_, _, .stopClient s⟩
  | startServer =>
    by_cases hc : s.server = none
    · exact ⟨_, _, .startServer s hc⟩
    · exact ⟨_, _, .startServerAgain s hc⟩
  | stopServer => exact ⟨_, _, .stopServer s⟩

end Verif.Runner
