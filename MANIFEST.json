{
 "claims": [
  {
   "property": "C01",
   "status": "proved",
   "theorems": [
    "Dhara.map_is_dictionary",
    "Dhara.read_returns_latest_write",
    "Dhara.write_stores"
   ],
   "note": ""
  },
  {
   "property": "C02",
   "status": "proved",
   "theorems": [
    "Dhara.other_sectors_untouched"
   ],
   "note": ""
  },
  {
   "property": "C03",
   "status": "proved",
   "theorems": [
    "Dhara.gc_sync_keep_contents",
    "Dhara.other_sectors_untouched",
    "Dhara.map_is_dictionary"
   ],
   "note": ""
  },
  {
   "property": "C04",
   "status": "proved",
   "theorems": [
    "Dhara.size_counts_mapped"
   ],
   "note": ""
  },
  {
   "property": "C05",
   "status": "proved",
   "theorems": [
    "Dhara.refused_changes_nothing"
   ],
   "note": ""
  },
  {
   "property": "C06",
   "status": "proved",
   "theorems": [
    "Dhara.refusal_means_full",
    "Dhara.growth_within_capacity"
   ],
   "note": ""
  },
  {
   "property": "C07",
   "status": "proved",
   "theorems": [
    "Dhara.copy_sector_copies"
   ],
   "note": ""
  },
  {
   "property": "C08",
   "status": "proved",
   "theorems": [
    "Dhara.copy_page_copies",
    "Dhara.other_sectors_untouched"
   ],
   "note": ""
  },
  {
   "property": "C09",
   "status": "proved",
   "theorems": [
    "Dhara.trim_removes"
   ],
   "note": ""
  },
  {
   "property": "C10",
   "status": "proved",
   "theorems": [
    "Dhara.clear_empties"
   ],
   "note": ""
  },
  {
   "property": "C11",
   "status": "proved",
   "theorems": [
    "Dhara.find_locates_data",
    "Dhara.size_counts_mapped"
   ],
   "note": ""
  },
  {
   "property": "C12",
   "status": "proved",
   "theorems": [
    "Dhara.sync_is_durable",
    "Dhara.synced_sector_survives"
   ],
   "note": " Hypotheses: garbled pages never imitate a checkpoint header (NoForgery), power does not fail while a block recovery is in progress (CrashOk; C42 shows why; blocks may otherwise fail in the interrupted call, Example3 Ex3F), at least two good blocks in every run of eight and no failing read at power-up; a first push after resume into a half-written group must not fail (C45)."
  },
  {
   "property": "C13",
   "status": "proved",
   "theorems": [
    "Dhara.crash_keeps_prefix",
    "Dhara.power_off_keeps_prefix",
    "Dhara.crash_is_atomic"
   ],
   "note": " Hypotheses: garbled pages never imitate a checkpoint header (NoForgery), power does not fail while a block recovery is in progress (CrashOk; C42 shows why; blocks may otherwise fail in the interrupted call, Example3 Ex3F), at least two good blocks in every run of eight and no failing read at power-up; a first push after resume into a half-written group must not fail (C45)."
  },
  {
   "property": "C14",
   "status": "proved",
   "theorems": [
    "Dhara.run_has_log",
    "Dhara.run_is_dictionary",
    "Dhara.run_call",
    "Dhara.exposed_only_after_power_up",
    "Dhara.fresh_not_exposed"
   ],
   "note": " Hypotheses: garbled pages never imitate a checkpoint header (NoForgery), power does not fail while a block recovery is in progress (CrashOk; C42 shows why; blocks may otherwise fail in the interrupted call, Example3 Ex3F), at least two good blocks in every run of eight and no failing read at power-up; a first push after resume into a half-written group must not fail (C45)."
  },
  {
   "property": "C15",
   "status": "proved",
   "theorems": [
    "Dhara.resume_blank",
    "Dhara.resume_tooBad_empty"
   ],
   "note": ""
  },
  {
   "property": "C16",
   "status": "proved",
   "theorems": [
    "Dhara.nand_contract"
   ],
   "note": ""
  },
  {
   "property": "C17",
   "status": "proved",
   "theorems": [
    "Dhara.live_data_survives",
    "Dhara.written_data_survives",
    "Dhara.live_data_survives_run",
    "Dhara.push_keeps_queue",
    "Dhara.live_page_on_good_block",
    "Dhara.live_page_on_good_block_run"
   ],
   "note": "Moments inside a call are observed by cutting the power there. After a power failure in an earlier call the hypothesis of C45 (Exposed) is needed."
  },
  {
   "property": "C18",
   "status": "proved",
   "theorems": [
    "Dhara.journal_pointers_valid",
    "Dhara.map_pointers_valid"
   ],
   "note": ""
  },
  {
   "property": "C19",
   "status": "proved",
   "theorems": [
    "Dhara.enqueue_stores",
    "Dhara.copy_stores"
   ],
   "note": ""
  },
  {
   "property": "C20",
   "status": "proved",
   "theorems": [
    "Dhara.journal_full_refused",
    "Dhara.journal_full_refused_copy",
    "Dhara.journal_pointers_valid"
   ],
   "note": ""
  },
  {
   "property": "C21",
   "status": "proved",
   "theorems": [
    "Dhara.journal_size_exact",
    "Dhara.map_journal_size_exact",
    "Dhara.journal_capacity_exact"
   ],
   "note": "The condition of journal_capacity_exact on the counters is C66; capacity_after_refused_enqueues is the defect there."
  },
  {
   "property": "C22",
   "status": "proved",
   "theorems": [
    "Dhara.calls_terminate",
    "Dhara.calls_terminate_in_use",
    "Dhara.calls_terminate_run",
    "Dhara.fuel_immaterial",
    "Dhara.operations_bounded",
    "Dhara.resume_terminates"
   ],
   "note": "States are those after a history as in C01 (or C14 for the _run theorem). fuelBound is an explicit function of the geometry."
  },
  {
   "property": "C23",
   "status": "proved",
   "theorems": [
    "Dhara.checkpoint_period_maximal",
    "Dhara.slices_disjoint_and_inside"
   ],
   "note": ""
  },
  {
   "property": "C24",
   "status": "proved",
   "theorems": [
    "Dhara.r32_w32_roundtrip",
    "Dhara.r16_w16_roundtrip",
    "Dhara.w32_bytes",
    "Dhara.w16_bytes",
    "Dhara.w32_r32_id",
    "Dhara.header_fields_roundtrip",
    "Dhara.meta_fields_roundtrip"
   ],
   "note": ""
  },
  {
   "property": "C25",
   "status": "proved",
   "theorems": [
    "Dhara.lookup_reads_33"
   ],
   "note": ""
  },
  {
   "property": "C26",
   "status": "proved",
   "theorems": [
    "Dhara.wear_levelled",
    "Dhara.wear_levelled_after_power_up",
    "Dhara.good_blocks_within_one"
   ],
   "note": ""
  },
  {
   "property": "C27",
   "status": "proved",
   "theorems": [
    "Dhara.Hamming.hamming_corrects_one",
    "Dhara.Hamming.hamming_clean"
   ],
   "note": ""
  },
  {
   "property": "C28",
   "status": "proved",
   "theorems": [
    "Dhara.Hamming.hamming_detects_two"
   ],
   "note": ""
  },
  {
   "property": "C29",
   "status": "proved",
   "theorems": [
    "Dhara.Hamming.hamming_erased",
    "Dhara.Bch.bch_erased",
    "Dhara.Crc.crc_erased"
   ],
   "note": ""
  },
  {
   "property": "C30",
   "status": "proved",
   "theorems": [
    "Dhara.Bch.bch_verify_exact",
    "Dhara.Bch.bch_generate_verifies",
    "Dhara.Bch.bch_generate_frame",
    "Dhara.Bch.bch_verify_values"
   ],
   "note": ""
  },
  {
   "property": "C31",
   "status": "proved",
   "theorems": [
    "Dhara.Bch.bch_repair_restores",
    "Dhara.Bch.bch_repair_corrects",
    "Dhara.Bch.bch_round_trip",
    "Dhara.Bch.bch_repair_idle",
    "Dhara.Bch.bch_repair_frame",
    "Dhara.Bch.capacities"
   ],
   "note": "ECC bits are the `degree` bits that the code uses; flips in the unused bits of the last ECC byte are harmless and stay (bch_repair_corrects). Both builds of gf13."
  },
  {
   "property": "C32",
   "status": "proved",
   "theorems": [
    "Dhara.Gf13.gf13_field",
    "Dhara.Gf13.gf13_distinct",
    "Dhara.Gf13.gf13_mul_tables",
    "Dhara.Gf13.gf13_div_tables",
    "Dhara.Gf13.gf13_mulx_tables",
    "Dhara.Gf13.gf13_divx_tables",
    "Dhara.Gf13.gf13_mul_plain",
    "Dhara.Gf13.gf13_div_plain",
    "Dhara.Gf13.gf13_mulx_plain",
    "Dhara.Gf13.gf13_divx_plain",
    "Dhara.Gf13.gf13_builds_agree",
    "Dhara.Gf13.gf13_exp_log",
    "Dhara.Gf13.gf13_mul_zero"
   ],
   "note": "The 2x8192 table entries are checked by kernel evaluation (decide +kernel, no compiled code), then lifted to all pairs by algebra."
  },
  {
   "property": "C33",
   "status": "proved",
   "theorems": [
    "Dhara.Crc.crc_table",
    "Dhara.Crc.crc_append",
    "Dhara.Crc.crc_is_division",
    "Dhara.Crc.crc_affine"
   ],
   "note": ""
  },
  {
   "property": "C34",
   "status": "proved",
   "theorems": [
    "Dhara.Crc.crc_detects_burst",
    "Dhara.Crc.crc_detects_three"
   ],
   "note": ""
  },
  {
   "property": "C35",
   "status": "proved",
   "theorems": [
    "Dhara.strerror_spec",
    "Dhara.strerror_messages",
    "Dhara.err_codes_distinct"
   ],
   "note": ""
  },
  {
   "property": "C36",
   "status": "proved",
   "theorems": [
    "Dhara.failed_block_retired",
    "Dhara.failed_block_retired_run",
    "Dhara.interrupted_retired_run",
    "Dhara.all_failed_retired",
    "Dhara.current_page_not_failed"
   ],
   "note": "Nand.failed is bookkeeping in the chip model: set exactly when an erase or program answers E_BAD_BLOCK. Calls refused with E_MAP_FULL are covered too. The _run theorem carries the hypothesis of C45 (Exposed)."
  },
  {
   "property": "C37",
   "status": "proved",
   "theorems": [
    "Dhara.gc_collects",
    "Dhara.gc_never_grows",
    "Dhara.gc_removes",
    "Dhara.life_gc_collects",
    "Dhara.life_gc_never_grows",
    "Dhara.life_gc_removes"
   ],
   "note": "Queue = user pages from tail to head (c.slots). A map without sectors is left alone by gc (its queue holds at most one padding page)."
  },
  {
   "property": "C38",
   "status": "proved",
   "theorems": [
    "Dhara.healthy_never_full",
    "Dhara.healthy_never_full_any",
    "Dhara.healthy_stays_sound",
    "Dhara.life_never_full",
    "Dhara.life_stays_sound",
    "Dhara.life_power_cycle"
   ],
   "note": "Fits: capacity positive and gc ratio + 3 <= 8 blocks of pages. Proof: balance between collection steps and live pages (Proofs/Bal, Healthy*). Histories from creation; calls that failed with E_ECC are part of them. The life_ theorems add power cycles in clean states (they need NoForgery: what a torn or failed program leaves on a checkpoint page is no checkpoint)."
  },
  {
   "property": "C39",
   "status": "proved",
   "theorems": [
    "Dhara.reserved_sector_unmapped"
   ],
   "note": ""
  },
  {
   "property": "C40",
   "status": "proved",
   "theorems": [
    "Dhara.Viol.two_page_group_loses_write"
   ],
   "note": "The property is a defect: the theorem exhibits a history (kernel-computed) in which the modelled code does what the statement describes. "
  },
  {
   "property": "C41",
   "status": "proved",
   "theorems": [
    "Dhara.Viol.recovery_without_root_reads_off_chip"
   ],
   "note": "The property is a defect: the theorem exhibits a history (kernel-computed) in which the modelled code does what the statement describes. "
  },
  {
   "property": "C42",
   "status": "proved",
   "theorems": [
    "Dhara.Viol.crash_in_recovery_loses_synced"
   ],
   "note": "The property is a defect: the theorem exhibits a history (kernel-computed) in which the modelled code does what the statement describes. "
  },
  {
   "property": "C43",
   "status": "proved",
   "theorems": [
    "Dhara.clean_power_cycle",
    "Dhara.crash_keeps_prefix"
   ],
   "note": " Hypotheses: garbled pages never imitate a checkpoint header (NoForgery), power does not fail while a block recovery is in progress (CrashOk; C42 shows why; blocks may otherwise fail in the interrupted call, Example3 Ex3F), at least two good blocks in every run of eight and no failing read at power-up; a first push after resume into a half-written group must not fail (C45)."
  },
  {
   "property": "C44",
   "status": "proved",
   "theorems": [
    "Dhara.resume_keeps_chip",
    "Dhara.resume_repeatable"
   ],
   "note": ""
  },
  {
   "property": "C45",
   "status": "proved",
   "theorems": [
    "Dhara.Viol.failure_after_resume_loses_data"
   ],
   "note": "The property is a defect: the theorem exhibits a history (kernel-computed) in which the modelled code does what the statement describes. "
  },
  {
   "property": "C46",
   "status": "proved",
   "theorems": [
    "Dhara.reads_on_chip",
    "Dhara.reads_on_chip_in_use",
    "Dhara.reads_on_chip_run",
    "Dhara.find_read_on_chip",
    "Dhara.find_read_on_chip_run"
   ],
   "note": "nandRead answers ub exactly when page or byte range is off the chip; no function called on behalf of these operations swallows that error. The exception of the statement appears as RootlessRecovery and is possible only with at most one sector in use. With power failures the C45 hypothesis (Exposed) is needed."
  },
  {
   "property": "C47",
   "status": "proved",
   "theorems": [
    "Dhara.map_capacity_exact",
    "Dhara.map_capacity_monotone"
   ],
   "note": ""
  },
  {
   "property": "C48",
   "status": "proved",
   "theorems": [
    "Dhara.faultless_calls_succeed",
    "Dhara.faultless_life",
    "Dhara.life_calls_succeed",
    "Dhara.faultless_restarts"
   ],
   "note": "Every page of the initial chip readable (no torn pages left from earlier use)."
  },
  {
   "property": "C49",
   "status": "proved",
   "theorems": [
    "Dhara.failed_call_changes_nothing",
    "Dhara.failed_call_harmless_run"
   ],
   "note": "Quiet: no program or erase failed during the call. Without it the claim is false: see the notes on dump_meta and recover_from in DESIGN.md. Calls that fail this way are part of the histories of all other properties (Hist.failed, PStep.failed)."
  },
  {
   "property": "C50",
   "status": "proved",
   "theorems": [
    "Dhara.map_error_codes",
    "Dhara.find_error_codes",
    "Dhara.read_error_codes",
    "Dhara.enqueue_error_codes",
    "Dhara.copy_error_codes",
    "Dhara.resume_error_codes"
   ],
   "note": "Reported: the three outcomes that exist only in the model (power loss, contract violation by a read, fuel exhaustion) are excluded; C22/C46 say when the latter two cannot occur."
  },
  {
   "property": "C51",
   "status": "proved",
   "theorems": [
    "Dhara.ecc_means_read_failure",
    "Dhara.ecc_means_read_failure_lookup",
    "Dhara.pages_stay_readable",
    "Dhara.Viol.torn_page_blocks_gc",
    "Dhara.Viol.failed_page_blocks_gc"
   ],
   "note": "The positive part under the excluding hypothesis, and the negation of the unconditional claim on two witness histories (power failure; failed program without power failure)."
  },
  {
   "property": "C52",
   "status": "proved",
   "theorems": [
    "Dhara.resume_asks_on_chip",
    "Dhara.resume_any_contents",
    "Dhara.resume_terminates",
    "Dhara.Viol.forged_contents_trusted"
   ],
   "note": "Resume over arbitrary driver answers (shown equal to the modelled resume); the violation by two witness chips."
  },
  {
   "property": "C53",
   "status": "proved",
   "theorems": [
    "Dhara.bounded_work",
    "Dhara.bounded_work_run"
   ],
   "note": "The clock of the model chip counts program and erase operations (one tick more between calls). The second theorem allows power failures before the call, under NoForgery."
  },
  {
   "property": "C54",
   "status": "proved",
   "theorems": [
    "Dhara.Gftool.gftool_search",
    "Dhara.Gftool.gftool_search_ends",
    "Dhara.Gftool.gftool_search_irreducible",
    "Dhara.Gftool.gftool_search_one",
    "Dhara.Gftool.gftool_search_zero"
   ],
   "note": "The printed list is a value of the model. Degrees above 30 overflow an int in the program and are outside the claim."
  },
  {
   "property": "C55",
   "status": "proved",
   "theorems": [
    "Dhara.Gftool.gftool_tables",
    "Dhara.Gftool.gftool_tables_refused",
    "Dhara.Gftool.gftool_tables_bounds",
    "Dhara.Gftool.gftool_tables_overrun",
    "Dhara.Gftool.gftool_gf13"
   ],
   "note": "The printed tables are values of the model; the layout of the text (gf_dump) is not modelled."
  },
  {
   "property": "C56",
   "status": "proved",
   "theorems": [
    "Dhara.Gftool.gftool_bch",
    "Dhara.Gftool.gftool_bch_error",
    "Dhara.Gftool.gftool_bch_refused",
    "Dhara.Gftool.gftool_bch_fits",
    "Dhara.Gftool.gftool_bch_constants",
    "Dhara.Gftool.gftool_bch_sixteen"
   ],
   "note": "The last theorem is the violation for degree 16; primitive16 exhibits a generator it applies to."
  },
  {
   "property": "C57",
   "status": "proved",
   "theorems": [
    "Dhara.Gftool.gftool_parse",
    "Dhara.Gftool.gftool_parse_refused"
   ],
   "note": ""
  },
  {
   "property": "C58",
   "status": "proved",
   "theorems": [
    "Dhara.calls_stay_in_memory",
    "Dhara.lookups_stay_in_memory",
    "Dhara.journal_calls_stay_in_memory",
    "Dhara.journal_lookups_stay_in_memory",
    "Dhara.resume_stays_on_chip",
    "Dhara.init_stays_in_buffer",
    "Dhara.ptrs_ok",
    "Dhara.ptrs_ok_journal"
   ],
   "note": "A relational theorem: two runs that agree on existing memory agree in results and existing memory, and neither changes a byte beyond its page buffer. ptrs_ok and ptrs_ok_journal show the condition on the state in every history. Not covered: bytes beyond the page buffer after resume (dhara_nand_read is trusted to fill exactly the bytes asked for), the stack arrays of metadata (constant offsets below DHARA_META_SIZE)."
  },
  {
   "property": "C59",
   "status": "proved",
   "theorems": [
    "Dhara.journal_is_fifo",
    "Dhara.draining_returns_the_queue",
    "Dhara.journal_entries_kept",
    "Dhara.ExFifo.peek_after_failed_enqueue",
    "Dhara.ExFifo.peek_after_refused_enqueue"
   ],
   "note": "The fourth and fifth theorems are the violations after a failed and after a refused enqueue; so histories (Props/FifoSpec.lean, Fifo) contain a refused enqueue or copy only if no chip operation failed during it and the block at the head was not bad. A recovery that begins on an empty queue (root = DHARA_PAGE_NONE) is the violation C41 and ends a history."
  },
  {
   "property": "C60",
   "status": "proved",
   "theorems": [
    "Dhara.recovery_enumerates",
    "Dhara.recovery_ends",
    "Dhara.recovery_loses_nothing",
    "Dhara.recovery_terminates",
    "Dhara.ExRecover.peek_on_retired_block"
   ],
   "note": "jtRecover is the loop of tests/jtutil.c:65-105. The fifth theorem is the violation when the tail is in the middle of the failed block."
  },
  {
   "property": "C61",
   "status": "proved",
   "theorems": [
    "Dhara.journal_survives_power_failure",
    "Dhara.clean_journal_is_durable",
    "Dhara.clean_restart",
    "Dhara.journal_is_fifo_across_restarts",
    "Dhara.journal_entries_kept_across_restarts"
   ],
   "note": "Specification: Props/JPowerSpec.lean (JLog: histories with the record of what was last made persistent; Fails: the points of failure; Restored: what must be found). After the power cycle the queue may also contain, behind the saved entries, pages written after the checkpoint: the code skips over what it finds programmed."
  },
  {
   "property": "C62",
   "status": "proved",
   "theorems": [
    "Dhara.cookie_is_the_users",
    "Dhara.cookie_round_trip"
   ],
   "note": "For every state, reachable or not. A mount sets the cookie (C61); on a chip without checkpoints it is 0xffffffff."
  },
  {
   "property": "C63",
   "status": "proved",
   "theorems": [
    "Dhara.mark_dirty_protects",
    "Dhara.ExFifo.unmarked_entries_are_overwritten",
    "Dhara.journal_is_fifo",
    "Dhara.journal_is_fifo_across_restarts",
    "Dhara.cookie_is_the_users"
   ],
   "note": "Specification: Since in Props/JPowerSpec.lean. That marking changes nothing of the queue is the constructor `mark` of the histories Fifo and JLog (allowed at any time, also during a recovery), over which C59 to C61 are proved."
  },
  {
   "property": "C64",
   "status": "proved",
   "theorems": [
    "Dhara.Gentab.gentab_table",
    "Dhara.Gentab.gentab_made_the_table",
    "Dhara.Gentab.gentab_refuses"
   ],
   "note": "Reads is the syntax of the output, tableRun the ordinary use of such a table. printf is modelled by hex8 (%08x)."
  },
  {
   "property": "C65",
   "status": "proved",
   "theorems": [
    "Dhara.Bch.bch_repair_in_field",
    "Dhara.Bch.bch_builds_agree",
    "Dhara.Bch.massey_indices",
    "Dhara.Bch.bch_local",
    "Dhara.Bch.bch_repair_frame",
    "Dhara.Hamming.hamming_local",
    "Dhara.Crc.crc_local"
   ],
   "note": "Like says that operations agree on non-zero field elements and may do anything otherwise. Only the dividend of the division in berlekamp_massey can be zero (still a valid table index); its result is not used then. massey_indices speaks of the loop variables L and m of ecc/bch.c."
  },
  {
   "property": "C66",
   "status": "proved",
   "theorems": [
    "Dhara.journal_counters_in_range",
    "Dhara.map_counters_in_range",
    "Dhara.ExFifo.capacity_after_refused_enqueues"
   ],
   "note": "The third theorem is the violation after refused enqueues. Both counters are read as numbers: the map's and journal's counters in C are unsigned ints. Counters read from a checkpoint by a successful resume are not covered."
  },
  {
   "property": "C67",
   "status": "proved",
   "theorems": [
    "Dhara.journal_capacity_not_understated",
    "Dhara.journal_capacity_not_overstated",
    "Dhara.journal_counts_exact",
    "Dhara.map_counts_exact",
    "Dhara.journal_capacity_exact_after_round",
    "Dhara.map_capacity_exact_after_round"
   ],
   "note": "Specification (Lost, howMany, JAfter, JLater, MapLater, NotUnderstated, CountsExact, CapacityExact) at the top of Props/Capacity.lean. Part (1) is for journal histories in which a failing call had a root page (as C41); the counters loaded from a checkpoint by a successful resume are not covered."
  },
  {
   "property": "C68",
   "status": "proved",
   "theorems": [
    "Dhara.journal_life_in_range",
    "Dhara.map_life_in_range",
    "Dhara.journal_restart_mends_counts",
    "Dhara.map_restart_mends_counts",
    "Dhara.journal_any_life_in_range"
   ],
   "note": "Specification (Blank, Answered, JLife, MapLife; InRange of C66) at the top of Props/Lifetime.lean. Assumes NoForgery (Props/CrashSpec.lean)."
  },
  {
   "property": "C69",
   "status": "proved",
   "theorems": [
    "Dhara.refused_at_block_start_refuses_for_ever",
    "Dhara.refused_elsewhere_changes_nothing",
    "Dhara.ExWedge.refused_enqueue_wedges"
   ],
   "note": "A defect of the code: refused_at_block_start_refuses_for_ever is the violation, refused_enqueue_wedges a reachable case, refused_elsewhere_changes_nothing the case in which the property holds. Both are for refusals without a program or erase operation."
  },
  {
   "property": "C70",
   "status": "proved",
   "theorems": [
    "Dhara.restart_position",
    "Dhara.every_restart_position",
    "Dhara.power_failure_costs_at_most_a_block"
   ],
   "note": "restart_position: for arbitrary chip contents (the driver only must not take a page holding a checkpoint for an erased one). every_restart_position: for every history on a chip that was blank at first, that assumption being proved from NoForgery (garbage never starts with the magic number)."
  }
 ]
}