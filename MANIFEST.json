{
 "claims": [
  {
   "property": "C01",
   "status": "proved",
   "theorems": [
    "Keys.C01_closed",
    "Keys.C01_add_comm",
    "Keys.C01_add_assoc",
    "Keys.C01_add_sub",
    "Keys.C01_sub_eq_add_neg",
    "Keys.C01_add_DC",
    "Keys.C01_add_neg"
   ],
   "note": "all histories of + - neg and nonzero multiples"
  },
  {
   "property": "C02",
   "status": "proved",
   "theorems": [
    "Keys.C02_frequency",
    "Keys.C02_laws"
   ],
   "note": ""
  },
  {
   "property": "C03",
   "status": "partial",
   "theorems": [
    "Keys.C03_partial",
    "Keys.C03_refuted_eq",
    "Keys.C03_refuted_DC"
   ],
   "note": "false of the code for multiplication by zero; proved otherwise"
  },
  {
   "property": "C04",
   "status": "proved",
   "theorems": [
    "Keys.C04_frequencyKey",
    "Keys.C04_dictKey",
    "Keys.C04_eq_iff",
    "Keys.C04_dictKey_tuple_inj"
   ],
   "note": ""
  },
  {
   "property": "C05",
   "status": "proved",
   "theorems": [
    "Keys.C05_or",
    "Keys.C05_and",
    "Keys.C05_contains",
    "Keys.C05_subkey_has",
    "Keys.C05_order"
   ],
   "note": ""
  },
  {
   "property": "C06",
   "status": "proved",
   "theorems": [
    "Keys.C06_sub_ok",
    "Keys.C06_sub_spec",
    "Keys.C06_without_keys",
    "Keys.C06_purge_keys",
    "Keys.C06_replace_keys"
   ],
   "note": ""
  },
  {
   "property": "C07",
   "status": "partial",
   "theorems": [
    "Keys.C07_partial",
    "Keys.C07_refuted",
    "Keys.C07_refuted_total"
   ],
   "note": "false of the code: < is always False"
  },
  {
   "property": "C08",
   "status": "proved",
   "theorems": [
    "Queue.C08_queue",
    "Queue.C08_contents"
   ],
   "note": "all operation histories, every strict weak order"
  },
  {
   "property": "C09",
   "status": "proved",
   "theorems": [
    "Queue.C09_drain_sorted"
   ],
   "note": ""
  },
  {
   "property": "C10",
   "status": "partial",
   "theorems": [
    "Queue.C10_partial",
    "Queue.C10_refuted"
   ],
   "note": "false of the code: the thread safe pushpop always raises AttributeError; histories without pushpop agree"
  },
  {
   "property": "C100",
   "status": "partial",
   "theorems": [
    "Ode.C100_power_partial",
    "Ode.C100_power_refuted"
   ],
   "note": "Proved for crystals where only equal keys combine to sums (second harmonic generation); refuted when different keys do."
  },
  {
   "property": "C101",
   "status": "partial",
   "theorems": [
    "Ode.C101_transparent_partial",
    "Ode.C101_transparent_refuted",
    "Ode.C101_modulator_refuted"
   ],
   "note": "Proved for the keys of the crystal which take part in a product; refuted for keys without a partner and for the modulator."
  },
  {
   "property": "C102",
   "status": "partial",
   "theorems": [
    "Ode.C102_conj_partial",
    "Ode.C102_conj_refuted"
   ],
   "note": "Proved up to C/N if the equations have a solution; refuted for a given number of steps."
  },
  {
   "property": "C103",
   "status": "proved",
   "theorems": [
    "Ode.C103_couples",
    "Ode.C103_power"
   ],
   "note": ""
  },
  {
   "property": "C104",
   "status": "proved",
   "theorems": [
    "Ode.C104_diffracts"
   ],
   "note": ""
  },
  {
   "property": "C105",
   "status": "proved",
   "theorems": [
    "Sci.C105_solution",
    "Sci.C105_inverse",
    "Sci.C105_transfer",
    "Sci.C105_transfer_inverse",
    "Sci.C105_linear",
    "Sci.C105_linear_transfer",
    "Sci.C105_returns",
    "Sci.C105_linear_returns"
   ],
   "note": "In exact arithmetic; spsolve is trusted to solve regular systems (Sci.Exact). Returning assumes that the sorts do not raise and that a node listed as its own successor has an edge to itself. spsolve on a singular matrix is modelled as an error (really nan with a warning)."
  },
  {
   "property": "C106",
   "status": "partial",
   "theorems": [
    "Sci.C106_agree_partial",
    "Sci.C106_isolated_node_refuted"
   ],
   "note": "Proved when sources, inputs and outputs occur in the graph; refuted for a node without edges that is source and output."
  },
  {
   "property": "C107",
   "status": "partial",
   "theorems": [
    "Solve.C107_stop_partial",
    "Solve.C107_linear",
    "Solve.C107_exact",
    "Solve.C107_returns",
    "Solve.C107_stop_refuted"
   ],
   "note": "The stopping rule is proved for the fields that the last iterate holds; refuted for fields that vanish in the last step. Linear systems, exact_order and termination are proved in full."
  },
  {
   "property": "C108",
   "status": "partial",
   "theorems": [
    "Solve.C108_history",
    "Solve.C108_order_zero_refuted"
   ],
   "note": "Proved for orders N >= 1 (operating points N >= 0); refuted for readouts of order 0. Negative and default orders count from the number of orders found so far, by design."
  },
  {
   "property": "C109",
   "status": "partial",
   "theorems": [
    "Floating.C109_blocks",
    "Floating.C109_no_error",
    "Floating.C109_outside",
    "Floating.C109_add_refuted",
    "Floating.C109_add_blocks_refuted"
   ],
   "note": "Where the entries go, the assertion and the absence of other errors are proved in full; that couplings between the same nodes add is refuted: the last block replaces the others."
  },
  {
   "property": "C11",
   "status": "proved",
   "theorems": [
    "Graph.C11_elim"
   ],
   "note": "includes that a self gain of 1 raises ZeroDivisionError"
  },
  {
   "property": "C110",
   "status": "proved",
   "theorems": [
    "Floating.C110_analysis",
    "Floating.C110_purge",
    "Floating.C110_returns"
   ],
   "note": "The analysis returns with 2 * (number of nodes) + 2 rounds."
  },
  {
   "property": "C111",
   "status": "proved",
   "theorems": [
    "Floating.C111_converged"
   ],
   "note": "Under the stated condition that the blocks do not meet other edges (Separate); without it C109_add_refuted applies."
  },
  {
   "property": "C112",
   "status": "proved",
   "theorems": [
    "Floating.C112_integrated",
    "Floating.C112_declared"
   ],
   "note": "The state of each integrating coupling was made at the converged fields, now or at an earlier request (OCpl.Made)."
  },
  {
   "property": "C113",
   "status": "partial",
   "theorems": [
    "Sre.C113_no_error",
    "Sre.C113_gram_partial",
    "Sre.C113_unitary_partial",
    "Sre.C113_small_refuted",
    "Sre.C113_norm_refuted"
   ],
   "note": "Proved for threshold zero, and for any threshold that no entry of the Gram-Schmidt vectors falls below; refuted for the threshold of the code, which drops small entries after the norm is taken."
  },
  {
   "property": "C114",
   "status": "partial",
   "theorems": [
    "Optics.C114_variances_partial",
    "Optics.C114_pure_partial",
    "Optics.C114_loss_refuted",
    "Optics.C114_gain_refuted",
    "Optics.C114_attribute_refuted",
    "Optics.C114_vacuum_refuted",
    "Optics.C114_order_refuted",
    "Optics.C114_recorded_refuted"
   ],
   "note": "Proved for the first variance below and the second above one, or the first alone; refuted for gains, decibels, a variance with a loss, exchanged variances and no squeezing."
  },
  {
   "property": "C115",
   "status": "partial",
   "theorems": [
    "Optics.C115_fields",
    "Optics.C115_quadratures",
    "Optics.C115_commutators_partial",
    "Optics.C115_variances_partial",
    "Optics.C115_other_refuted",
    "Optics.C115_loss_refuted",
    "Optics.C115_amplitude_refuted"
   ],
   "note": "Fields at all outputs, commutators at the optical ports and the variances are proved, the latter turned by 90 degrees against the docstring; loss ports, other frequencies and the direction of the docstring are refuted."
  },
  {
   "property": "C116",
   "status": "partial",
   "theorems": [
    "Alm.Comp.C116_path",
    "Alm.Comp.C116_compose_partial",
    "Alm.Comp.C116_target_partial",
    "Alm.Comp.C116_lens_refuted",
    "Alm.Comp.C116_outside"
   ],
   "note": "The path is proved for all places; independence of the target for places where no thin element acts, refuted at thin elements."
  },
  {
   "property": "C117",
   "status": "partial",
   "theorems": [
    "Alm.Meas.C117_overlap",
    "Alm.Meas.C117_anywhere",
    "Alm.Meas.C117_symmetric_partial",
    "Alm.Meas.C117_targets",
    "Alm.Meas.C117_default",
    "Alm.Meas.C117_seq",
    "Alm.Meas.C117_list_partial",
    "Alm.Meas.C117_surface_refuted"
   ],
   "note": "Value of the overlap for all layouts; symmetry and bounds in one medium, refuted across a refracting surface."
  },
  {
   "property": "C118",
   "status": "proved",
   "theorems": [
    "Alm.Meas.C118_source",
    "Alm.Meas.C118_beam",
    "Alm.Meas.C118_unit",
    "Alm.Meas.C118_add",
    "Alm.Meas.C118_space",
    "Alm.Meas.C118_ends",
    "Alm.Meas.C118_default"
   ],
   "note": ""
  },
  {
   "property": "C119",
   "status": "proved",
   "theorems": [
    "Lgd.C119_integers",
    "Lgd.C119_shape",
    "Lgd.C119_monotone",
    "Lgd.C119_none"
   ],
   "note": ""
  },
  {
   "property": "C12",
   "status": "proved",
   "theorems": [
    "Graph.C12_solution",
    "Graph.C12_inverse",
    "Graph.C12_only_failure",
    "Graph.C12_undriven_loop",
    "Graph.C12_dead_end_fails"
   ],
   "note": "undriven nodes at rest; C12_undriven_loop shows the unrestricted claim is false; C12_dead_end_fails shows a failure with purge_in off"
  },
  {
   "property": "C120",
   "status": "proved",
   "theorems": [
    "Lgd.C120_response",
    "Lgd.C120_refused",
    "Lgd.C120_gain"
   ],
   "note": "For root finders that return all roots with multiplicity (Factors)."
  },
  {
   "property": "C121",
   "status": "proved",
   "theorems": [
    "Lgd.C121_steepest"
   ],
   "note": ""
  },
  {
   "property": "C122",
   "status": "partial",
   "theorems": [
    "Npu.C122_sections_partial",
    "Npu.C122_refuted",
    "Npu.C122_antisections",
    "Npu.C122_complement"
   ],
   "note": "The last element is lost when it is True (C122_refuted); everything else is proved."
  },
  {
   "property": "C123",
   "status": "partial",
   "theorems": [
    "Npu.C123_continuous_partial",
    "Npu.C123_continuous_refuted",
    "Npu.C123_signed",
    "Npu.C123_signed_unique",
    "Npu.C123_delay",
    "Npu.C123_pure_delay",
    "Npu.C123_single_refuted"
   ],
   "note": "continuous_phase fails on all data with jumps; a single point has two delays."
  },
  {
   "property": "C124",
   "status": "partial",
   "theorems": [
    "Npu.C124_first_partial",
    "Npu.C124_first_refuted"
   ],
   "note": "True only when one of the first two entries is a number, or none is."
  },
  {
   "property": "C125",
   "status": "proved",
   "theorems": [
    "Npu.C125_sort",
    "Npu.C125_interval"
   ],
   "note": ""
  },
  {
   "property": "C126",
   "status": "partial",
   "theorems": [
    "Unt.C126_add_partial",
    "Unt.C126_sub",
    "Unt.C126_kinds",
    "Unt.C126_units",
    "Unt.C126_scale",
    "Unt.C126_refuted",
    "Unt.C126_unitless_refuted"
   ],
   "note": "Quotients are a TypeError, and so are sums of values without units; the rest is proved."
  },
  {
   "property": "C127",
   "status": "proved",
   "theorems": [
    "Unt.C127_read",
    "Unt.C127_ratio",
    "Unt.C127_kinds"
   ],
   "note": ""
  },
  {
   "property": "C128",
   "status": "partial",
   "theorems": [
    "Unt.C128_given_partial",
    "Unt.C128_missing",
    "Unt.C128_once",
    "Unt.C128_override",
    "Unt.C128_prototype",
    "Unt.C128_quantity_refuted",
    "Unt.C128_units_refuted",
    "Unt.C128_reference_refuted"
   ],
   "note": "Quantities are refused; a tree that only has a value, or a value and units, is completed in the wrong units."
  },
  {
   "property": "C129",
   "status": "partial",
   "theorems": [
    "Unt.C129_key",
    "Unt.C129_initial",
    "Unt.C129_inject",
    "Unt.C129_reinject",
    "Unt.C129_unchanged",
    "Unt.C129_two",
    "Unt.C129_plain_partial",
    "Unt.C129_plain_inject",
    "Unt.C129_again_refuted"
   ],
   "note": "Parameters without units can be fitted once only."
  },
  {
   "property": "C13",
   "status": "proved",
   "theorems": [
    "Graph.C13_transfer",
    "Graph.C13_inverse"
   ],
   "note": ""
  },
  {
   "property": "C130",
   "status": "partial",
   "theorems": [
    "Unt.C130_check_partial",
    "Unt.C130_unique_refuted",
    "Unt.C130_lost",
    "Unt.C130_plane_partial",
    "Unt.C130_plane_refuted"
   ],
   "note": "The check never sees another parameter; stable roots may become unstable."
  },
  {
   "property": "C131",
   "status": "partial",
   "theorems": [
    "Circuit.C131_law_partial",
    "Circuit.C131_reciprocal",
    "Circuit.C131_refuted"
   ],
   "note": "The law holds in a convention that the other mechanical elements do not share."
  },
  {
   "property": "C132",
   "status": "partial",
   "theorems": [
    "Optics.C132_scatter",
    "Optics.C132_ideal_partial",
    "Optics.C132_loss_refuted"
   ],
   "note": "Losses above the defects give roots of negative powers; the rest is proved."
  },
  {
   "property": "C133",
   "status": "partial",
   "theorems": [
    "Optics.C133_partial",
    "Optics.C133_refuted",
    "Optics.C133_pol_refuted"
   ],
   "note": "Holds with a rotator of 45 degrees, which the isolator does not build."
  },
  {
   "property": "C134",
   "status": "partial",
   "theorems": [
    "Signal.C134_filter_partial",
    "Signal.C134_keys_partial",
    "Signal.C134_amplifier_partial",
    "Signal.C134_names_refuted",
    "Signal.C134_max_refuted"
   ],
   "note": "Holds where each output has the name of an input and a pair with it, and without maximum frequency."
  },
  {
   "property": "C135",
   "status": "partial",
   "theorems": [
    "Optics.C135_shift",
    "Optics.C135_power_partial",
    "Optics.C135_back",
    "Optics.C135_conjugate",
    "Optics.C135_idle_refuted"
   ],
   "note": "Power is conserved for drives that do not vanish and have no component at zero frequency; without drive all light is lost."
  },
  {
   "property": "C136",
   "status": "partial",
   "theorems": [
    "Optics.C136_signal",
    "Optics.C136_common",
    "Optics.C136_through",
    "Optics.C136_ok",
    "Optics.C136_outputs",
    "Optics.C136_sidebands",
    "Optics.C136_wave_partial",
    "Optics.C136_real",
    "Optics.C136_power",
    "Optics.C136_quanta",
    "Optics.C136_matched",
    "Optics.C136_phase",
    "Optics.C136_rotate",
    "Optics.C136_half_refuted"
   ],
   "note": "All but the value at all times: the modulations come out at half their value; QuantaDC is twice the photon rate."
  },
  {
   "property": "C137",
   "status": "proved",
   "theorems": [
    "Alm.QFit.C137_units",
    "Alm.QFit.C137_curve",
    "Alm.QFit.C137_waist",
    "Alm.QFit.C137_unique",
    "Alm.QFit.C137_two_refuted",
    "Alm.QFit.C137_recovers",
    "Alm.QFit.C137_guess",
    "Alm.QFit.C137_guess_exact",
    "Alm.QFit.C137_prefit",
    "Alm.C137_target",
    "Alm.C137_at"
   ],
   "note": "Least squares (scipy) is a parameter; that two places do not suffice is shown by a counterexample."
  },
  {
   "property": "C138",
   "status": "proved",
   "theorems": [
    "Circulation.C138_normalize",
    "Circulation.C138_reflect",
    "Circulation.C138_mirror",
    "Circulation.C138_jones",
    "Circulation.C138_defect",
    "Circulation.C138_planar",
    "Circulation.C138_start",
    "Circulation.C138_ok",
    "Circulation.C138_linear_refuted",
    "Circulation.C138_moved"
   ],
   "note": "Two mirrors have no matrix, shown for all positions."
  },
  {
   "property": "C139",
   "status": "partial",
   "theorems": [
    "PowerLoops.C139_mult",
    "PowerLoops.C139_mult_ok",
    "PowerLoops.C139_div",
    "PowerLoops.C139_unity",
    "PowerLoops.C139_scale",
    "PowerLoops.C139_controller_partial",
    "PowerLoops.C139_unity_gain_refuted",
    "PowerLoops.C139_sorted",
    "PowerLoops.C139_convert",
    "PowerLoops.C139_lost_refuted",
    "PowerLoops.C139_shift",
    "PowerLoops.C139_ok",
    "PowerLoops.C139_controller_ok",
    "PowerLoops.C139_boost7_refuted"
   ],
   "note": "scipy's designs are parameters. That UGF is a unity gain frequency is refuted; its gain is proved. Roots at the origin, almost real or without partner are not kept by the conversion (refuted)."
  },
  {
   "property": "C14",
   "status": "proved",
   "theorems": [
    "Graph.C14_order"
   ],
   "note": "any queue order, pop order and cost measure"
  },
  {
   "property": "C140",
   "status": "partial",
   "theorems": [
    "Circuit.C140_transformer_partial",
    "Circuit.C140_transformer_refuted",
    "Circuit.C140_open_refuted",
    "Circuit.C140_ok",
    "Circuit.C140_series_refuted",
    "Circuit.C140_noise",
    "Circuit.C140_series_noise_refuted"
   ],
   "note": "The law realised by the code is proved for windings without resistance; the law of coupled inductors is refuted for each of them."
  },
  {
   "property": "C141",
   "status": "partial",
   "theorems": [
    "Vendor.C141_V",
    "Vendor.C141_I",
    "Vendor.C141_corner_refuted",
    "Vendor.C141_dc_refuted",
    "Vendor.C141_gain",
    "Vendor.C141_inamp"
   ],
   "note": "The densities at 1 Hz and the values at zero frequency are refuted; the rest is proved. The instrumentation amplifier has no gain."
  },
  {
   "property": "C142",
   "status": "partial",
   "theorems": [
    "Fill.C142_targets",
    "Fill.C142_sources",
    "Fill.C142_orders",
    "Fill.C142_terminates",
    "Fill.C142_drive_refuted"
   ],
   "note": "The last clause is refuted: for raising fields it asks for drives at sums of frequencies. The sources need the negative component of the drive, which the mixer of the modulator asks for."
  },
  {
   "property": "C143",
   "status": "proved",
   "theorems": [
    "Fill.C143_same",
    "Fill.C143_nodes",
    "Fill.C143_orders",
    "Fill.C143_terminates",
    "Fill.C143_shifts",
    "Fill.C143_through"
   ],
   "note": ""
  },
  {
   "property": "C144",
   "status": "partial",
   "theorems": [
    "Fill.C144_beats",
    "Fill.C144_conjugate",
    "Fill.C144_quiet",
    "Fill.C144_nodes",
    "Fill.C144_source_refuted"
   ],
   "note": "Proved for detectors whose oscillator is the light at their front; independence of the order is refuted for an oscillator at another port. Missing: the nodes for an oscillator at another port."
  },
  {
   "property": "C145",
   "status": "partial",
   "theorems": [
    "Alm.C145_space",
    "Alm.C145_sides",
    "Alm.C145_ends_refuted",
    "Alm.Comp.C145_side",
    "Alm.C145_once",
    "Alm.C145_source_refuted"
   ],
   "note": "Proved for each space; a waist at the source between two spaces is described twice, and a space that begins at a target is described with the beam of the target before (refuted)."
  },
  {
   "property": "C146",
   "status": "partial",
   "theorems": [
    "Alm.C146_lengths",
    "Alm.C146_order",
    "Alm.C146_system",
    "Alm.C146_beam_refuted"
   ],
   "note": "Proved for layouts; a layout without a target has no constraints (refuted)."
  },
  {
   "property": "C147",
   "status": "partial",
   "theorems": [
    "Disp.C147_first",
    "Disp.C147_registered",
    "Disp.C147_history",
    "Disp.C147_numbers_refuted",
    "Disp.C147_classes_refuted",
    "Disp.C147_conjugate",
    "Disp.C147_parts_refuted",
    "Disp.C147_zero",
    "Disp.C147_symbolic"
   ],
   "note": "Proved for all tables and histories; refuted for python's numbers (given to numpy instead of math), for classes of sympy that are not registered and for the default conjugate of objects of two parts."
  },
  {
   "property": "C148",
   "status": "proved",
   "theorems": [
    "Circuit.C148_reading"
   ],
   "note": "Proved for all solutions of the equations of the completed circuit; the values of the elements are parameters."
  },
  {
   "property": "C149",
   "status": "partial",
   "theorems": [
    "Circuit.C149_reading",
    "Circuit.C149_force_refuted",
    "Circuit.C149_clamped",
    "Circuit.C149_mass_refuted"
   ],
   "note": "Proved for the reading and for ports at the ground; refuted for the force: the port is a spring of stiffness 1/Zm with twice the force."
  },
  {
   "property": "C15",
   "status": "proved",
   "theorems": [
    "Graph.C15_purge",
    "Graph.C15_equations"
   ],
   "note": ""
  },
  {
   "property": "C150",
   "status": "partial",
   "theorems": [
    "Alm.C150_targets",
    "Alm.C150_mount_refuted",
    "Alm.PTarget.C150_chain",
    "Alm.PTarget.C150_back"
   ],
   "note": "Proved for elements that are not in mounts and for beams with a waist; refuted for elements in mounts, which have no as_target."
  },
  {
   "property": "C151",
   "status": "partial",
   "theorems": [
    "Fill.C151_light",
    "Fill.C151_nodes_partial",
    "Fill.keeps_sqz",
    "Fill.C151_loss_refuted",
    "Fill.C151_targets_refuted",
    "Fill.C151_orders_refuted"
   ],
   "note": "Proved for the keys of the light, for centers at the carrier and for nodes where inputs have the keys of outputs; refuted for the vacuum of the loss, for targets and for order limits with other centers."
  },
  {
   "property": "C152",
   "status": "partial",
   "theorems": [
    "Fill.C152_light",
    "Fill.C152_build",
    "Fill.C152_closed",
    "Fill.keeps_crystal",
    "Fill.even_crystal",
    "Fill.C152_composite_refuted"
   ],
   "note": "Proved, with the equations for systems whose keys are multiples of single wavelengths; refuted for sums of two wavelengths, which are asked for and then raise."
  },
  {
   "property": "C153",
   "status": "partial",
   "theorems": [
    "Fit.C153_nonneg",
    "Fit.C153_scale",
    "Fit.C153_subtract",
    "Fit.C153_magnitude",
    "Fit.C153_direct_partial",
    "Fit.C153_direct_refuted",
    "Fit.C153_bias_partial",
    "Fit.C153_bias_refuted",
    "Fit.C153_limit_refuted"
   ],
   "note": "Proved for subtract and magnitude; refuted for direct (the wrong sign fits) and bias_balance (a second zero; not finite with a limit), with all zeros of both in the partial theorems."
  },
  {
   "property": "C154",
   "status": "partial",
   "theorems": [
    "Fit.C154_mean",
    "Fit.C154_sum",
    "Fit.C154_plain",
    "Fit.C154_one",
    "Fit.C154_bounds",
    "Fit.C154_relative",
    "Fit.C154_two",
    "Fit.C154_unravel",
    "Fit.C154_pairs_refuted",
    "Fit.C154_order_refuted"
   ],
   "note": "Proved that a mean is minimized, which is right for no and for one jittered parameter; refuted for pairs of parameters, which are never moved together, and for their order."
  },
  {
   "property": "C155",
   "status": "partial",
   "theorems": [
    "Fit.C155_lengths",
    "Fit.C155_nodup",
    "Fit.C155_solution",
    "Fit.C155_start",
    "Fit.C155_bounds_partial",
    "Fit.C155_bounds_refuted",
    "Fit.C155_twice_refuted"
   ],
   "note": "Proved for lists and solutions and for the bounds of real parameters; refuted for the bounds of imaginary parts, which are tuples, and for complex parameters, which are twice in the list of bunches."
  },
  {
   "property": "C156",
   "status": "partial",
   "theorems": [
    "Util.C156_phase",
    "Util.C156_degrees",
    "Util.C156_chain",
    "Util.C156_center",
    "Util.C156_total",
    "Util.C156_positive_refuted",
    "Util.C156_jump_refuted"
   ],
   "note": "Proved for full turns, neighbours and the center; refuted for the agreement of numbers and arrays: without a center a positive number in an array has the phase of a whole turn."
  },
  {
   "property": "C16",
   "status": "proved",
   "theorems": [
    "Graph.C16_color"
   ],
   "note": ""
  },
  {
   "property": "C17",
   "status": "proved",
   "theorems": [
    "Graph.C17_ops",
    "Graph.C17_simplify"
   ],
   "note": "start graph without values stored for unlisted edges"
  },
  {
   "property": "C18",
   "status": "proved",
   "theorems": [
    "Dag.C18_reduceLU",
    "Dag.C18_zero_diagonal"
   ],
   "note": "Over any field and any finite node type."
  },
  {
   "property": "C19",
   "status": "proved",
   "theorems": [
    "Dag.C19_column",
    "Dag.C19_row",
    "Dag.C19_twice"
   ],
   "note": "Over any field; distinct present nodes."
  },
  {
   "property": "C20",
   "status": "proved",
   "theorems": [
    "Dag.C20_row",
    "Dag.C20_col"
   ],
   "note": "Over the complex numbers; the step raises exactly when the diagonal entry is 0."
  },
  {
   "property": "C21",
   "status": "proved",
   "theorems": [
    "Dag.C21_solution",
    "Dag.C21_inverse",
    "Dag.C21_transfer",
    "Dag.C21_transfer_inverse",
    "Dag.C21_linear",
    "Dag.C21_linear_transfer"
   ],
   "note": "All heuristics arbitrary. C22_isolated_node shows the need for nodes to occur in the graph."
  },
  {
   "property": "C22",
   "status": "proved",
   "theorems": [
    "Dag.C22_agree",
    "Dag.C22_isolated_node"
   ],
   "note": "C22_isolated_node: the solvers disagree on a node without edges that is both source and output."
  },
  {
   "property": "C23",
   "status": "proved",
   "theorems": [
    "Sre.C23_product",
    "Sre.C23_finished",
    "Sre.C23_keyError"
   ],
   "note": "With plain dictionaries the product raises KeyError when the second matrix starts from a node the first never reaches (C23_keyError); otherwise it is the matrix product."
  },
  {
   "property": "C24",
   "status": "proved",
   "theorems": [
    "Sre.C24_adjoint",
    "Sre.C24_twice",
    "Sre.C24_product"
   ],
   "note": ""
  },
  {
   "property": "C25",
   "status": "proved",
   "theorems": [
    "KeyMat.C25_index",
    "KeyMat.C25_frozen",
    "KeyMat.C25_unfrozen",
    "KeyMat.C25_freeze",
    "KeyMat.C25_forever",
    "KeyMat.C25_inverse"
   ],
   "note": "For every world reached by any sequence of calls on spaces, vectors and matrices."
  },
  {
   "property": "C26",
   "status": "partial",
   "theorems": [
    "KeyMat.C26_vector_partial",
    "KeyMat.C26_matrix_partial",
    "KeyMat.C26_vector_frozen",
    "KeyMat.C26_matrix_frozen",
    "KeyMat.C26_empty",
    "KeyMat.C26_stale",
    "KeyMat.C26_stale_matrix",
    "KeyMat.C26_vector_write",
    "KeyMat.C26_vector_add",
    "KeyMat.C26_vector_delete",
    "KeyMat.C26_matrix_write",
    "KeyMat.C26_matrix_multiply",
    "KeyMat.C26_matrix_nullable",
    "KeyMat.C26_matrix_delete",
    "KeyMat.C26_matrix_fill",
    "KeyMat.C26_idx_dict",
    "KeyMat.C26_idx_stale"
   ],
   "note": "Proved for every history as long as the object has entries, or its spaces were frozen before it was made. The remaining case is false in the code (C26_stale: the memo does not notice keys added to the space); idx_dict can be stale as well (C26_idx_stale)."
  },
  {
   "property": "C27",
   "status": "partial",
   "theorems": [
    "KeyMat.C27_sub",
    "KeyMat.C27_sub_array",
    "KeyMat.C27_add_partial",
    "KeyMat.C27_add_fails",
    "KeyMat.C27_spaces",
    "KeyMat.C27_eye",
    "KeyMat.C27_mul",
    "KeyMat.C27_scale",
    "KeyMat.C27_items",
    "KeyMat.C27_delete"
   ],
   "note": "Difference, identity, product and scaling are proved in full. The sum is right only when every entry of the second matrix is stored in the first; otherwise it is proved never to be a keyed matrix (C27_add_fails)."
  },
  {
   "property": "C28",
   "status": "partial",
   "theorems": [
    "KeyMat.C28_vector",
    "KeyMat.C28_transposed_partial",
    "KeyMat.C28_swapped",
    "KeyMat.C28_inverse",
    "KeyMat.C28_refuted",
    "KeyMat.C28_refused"
   ],
   "note": "Vectors round trip. For matrices the code expects the transposed array: array_T round trips, the array itself comes back transposed (C28_swapped, C28_refuted) or is refused (C28_refused)."
  },
  {
   "property": "C29",
   "status": "partial",
   "theorems": [
    "Tarjan.C29_order",
    "Tarjan.C29_cycle",
    "Tarjan.C29_dict",
    "Tarjan.C29_two",
    "Tarjan.C29_three",
    "Tarjan.C29_lost"
   ],
   "note": "Proved: the order of acyclic graphs (both modes), SCCError with mutually reachable nodes on every cyclic graph when single nodes are demanded, and topological_sort_dict. The remaining part (components of cyclic graphs without single) is false in the code: C29_two, C29_three, C29_lost."
  },
  {
   "property": "C30",
   "status": "proved",
   "theorems": [
    "Num.C30_bits"
   ],
   "note": ""
  },
  {
   "property": "C31",
   "status": "proved",
   "theorems": [
    "Num.C31_stackrange",
    "Num.C31_iterables",
    "Num.C31_empty"
   ],
   "note": ""
  },
  {
   "property": "C32",
   "status": "proved",
   "theorems": [
    "Cplx.C32_init",
    "Cplx.C32_add",
    "Cplx.C32_sub",
    "Cplx.C32_mul",
    "Cplx.C32_div",
    "Cplx.C32_unary",
    "Cplx.C32_eq",
    "Cplx.C32_eq_bare",
    "Cplx.C32_hash",
    "Cplx.C32_exp",
    "Cplx.C32_angle",
    "Cplx.C32_angle_zero"
   ],
   "note": "Over the reals. Also exp and angle (angle(0) is pi/2, and comparing with an object without .real raises AttributeError)."
  },
  {
   "property": "C33",
   "status": "partial",
   "theorems": [
    "Cplx.C33_odd_partial",
    "Cplx.C33_half",
    "Cplx.C33_even",
    "Cplx.C33_zero",
    "Cplx.C33_negative",
    "Cplx.C33_refuted",
    "Cplx.C33_other"
   ],
   "note": "Proved for positive odd exponents and for 0.5. For all other integers the claim is false in the code and the negation is proved: even exponents raise TypeError, 0 never returns, negative odd exponents return the base."
  },
  {
   "property": "C34",
   "status": "proved",
   "theorems": [
    "Alm.Beam.C34_compose",
    "Alm.Beam.C34_identity",
    "Alm.Beam.C34_distance",
    "Alm.Beam.C34_gouy"
   ],
   "note": "Over the reals, for nonsingular matrices and wavelength*ZR > 0."
  },
  {
   "property": "C35",
   "status": "partial",
   "theorems": [
    "Alm.Beam.C35_Z_ZR",
    "Alm.Beam.C35_Z_W0",
    "Alm.Beam.C35_dRad_Z",
    "Alm.Beam.C35_W_R_partial",
    "Alm.Beam.C35_W_R_flat",
    "Alm.Beam.C35_accessors",
    "Alm.Beam.C35_roundtrip",
    "Alm.Beam.C35_physical"
   ],
   "note": "The one failing case is R=0 in from_W_R: it means a plane wave front and the R accessor then raises ZeroDivisionError (C35_W_R_flat)."
  },
  {
   "property": "C36",
   "status": "proved",
   "theorems": [
    "Alm.Beam.C36_eigenmode",
    "Alm.Beam.C36_unstable"
   ],
   "note": "Stability (|trace|<2, det=1) implies c != 0, so no further hypothesis is needed; uniqueness is included."
  },
  {
   "property": "C37",
   "status": "proved",
   "theorems": [
    "Alm.Beam.C37_self",
    "Alm.Beam.C37_overlap",
    "Alm.Beam.C37_integral",
    "Alm.Beam.C37_wavelengths"
   ],
   "note": "For equal wavelengths, as stated; with different wavelengths the code is asymmetric and exceeds 1 (C37_wavelengths)."
  },
  {
   "property": "C38",
   "status": "partial",
   "theorems": [
    "Alm.Comp.C38_path",
    "Alm.Comp.C38_compose_partial",
    "Alm.Comp.C38_identity",
    "Alm.Comp.C38_memo",
    "Alm.Comp.C38_empty_refuted",
    "Alm.Comp.C38_no_focal_refuted",
    "Alm.Comp.C38_mount_refuted"
   ],
   "note": "Composition, identity and independence of the memo for every layout with nonzero parameters; refuted for systems without elements, lenses without focal length and the index-0 targets of mounts."
  },
  {
   "property": "C39",
   "status": "proved",
   "theorems": [
    "Alm.C39_width",
    "Alm.C39_stack",
    "Alm.C39_tiles",
    "Alm.C39_located",
    "Alm.C39_reversed",
    "Alm.C39_target_pos",
    "Alm.C39_exists",
    "Alm.C39_ties",
    "Alm.C39_empty_refuted",
    "Alm.C39_flush_refuted"
   ],
   "note": "Every layout that resolves is tiled at every level, located components sit at their locations, and targets sit at the total length of what is left of them. Two components at one location, an empty system with a boundary and a component flush with the right boundary raise."
  },
  {
   "property": "C40",
   "status": "partial",
   "theorems": [
    "Ports.C40_no_error",
    "Ports.C40_least_partial",
    "Ports.C40_order_partial",
    "Ports.C40_terminates",
    "Ports.C40_symmetric_update",
    "Ports.C40_symmetric_update_same",
    "Ports.C40_list_refuted",
    "Ports.C40_virtual_refuted",
    "Ports.C40_mute_refuted",
    "Ports.C40_subset_refuted"
   ],
   "note": "Every schedule of every set.pop: no exception, termination when the closed universe is finite, the final key sets are the least assignment closed under initial requests, rules and bonds, and do not depend on the order. Needs: some owner of each port has system_setup_ports (C40_mute_refuted shows the loss otherwise) and handlers that re-read ports they feed as virtual owners (C40_virtual_refuted). symmetric_update meets the handler contract for two ports; with subset_second alone the result depends on the order (C40_subset_refuted), with a list it raises (C40_list_refuted)."
  },
  {
   "property": "C41",
   "status": "partial",
   "theorems": [
    "Inject.C41_fixed_point_term",
    "Inject.C41_fixed_point",
    "Inject.C41_expansion_partial",
    "Inject.C41_expansion_other",
    "Inject.C41_norms_expansion_partial",
    "Inject.C41_same_port",
    "Inject.C41_same_port_refuted",
    "Inject.C41_second_order",
    "Inject.C41_norm_shift_refuted",
    "Inject.C41_norm_expansion_refuted"
   ],
   "note": "Fixed point reproduction proved for every coupling class and for the whole system. First order expansion proved for two different ports; refuted when both factors are the same port (gain is c instead of 2c) and for the normalised couplings (derivative of the norm left out, 1e-30 shift only in the source)."
  },
  {
   "property": "C42",
   "status": "proved",
   "theorems": [
    "Circuit.C42_element",
    "Circuit.C42_connection_power",
    "Circuit.C42_current_balanced_refuted",
    "Circuit.C42_vamp",
    "Circuit.C42_vamp_ideal"
   ],
   "note": "For every element (terminating and series R, L, C, connections, cables, sources, op amp) the leaving waves are those of the inserted couplings exactly when the element's voltage/current law holds, at every key and for every field. Connections of any number of ports conserve power. CurrentSourceBalanced is not balanced (its currents add up to -2I) and VAmp with an output impedance has an open circuit voltage depending on Ze; both are proved."
  },
  {
   "property": "C43",
   "status": "partial",
   "theorems": [
    "Circuit.C43_refuted",
    "Circuit.C43_partial",
    "Circuit.C43_realised_partial",
    "Circuit.C43_uncoupled_wires",
    "Circuit.C43_asymmetric_refuted"
   ],
   "note": "The statement is false: witness with all entries of Z equal to Ze. Proved instead: the branch currents balance for every Z with nonzero denominator; for Z12 = Z21 the element realises exactly the elementwise reciprocal admittances; without coupling it is a pair of wires; for Z12 different from Z21 even the reciprocal law fails."
  },
  {
   "property": "C44",
   "status": "partial",
   "theorems": [
    "Signal.C44_equations",
    "Signal.C44_transfer",
    "Signal.C44_partial",
    "Signal.C44_no_error",
    "Signal.C44_index_error",
    "Signal.C44_refuted"
   ],
   "note": "False for models with a feed-through term: l.182 reads ports_states instead of ports_out, so D is added to the states (C44_refuted), and a model with more outputs than states raises (C44_index_error). Proved for all sizes: the couplings say exactly s X = A X + B U + s E D U, Y = C X; off the spectrum of A there is exactly one solution and its transfer function is C (s-A)^-1 (B + s E D); for D = 0 it is the stated one."
  },
  {
   "property": "C45",
   "status": "proved",
   "theorems": [
    "Signal.C45_conjugate",
    "Signal.C45_value",
    "Signal.C45_roots",
    "Signal.C45_dc",
    "Signal.C45_cascade"
   ],
   "note": "Frequencies are scalars (for arrays numpy returns inf instead of raising)."
  },
  {
   "property": "C46",
   "status": "proved",
   "theorems": [
    "Alm.Beam.C46_sqrt"
   ],
   "note": "Over the reals."
  },
  {
   "property": "C47",
   "status": "proved",
   "theorems": [
    "Alm.Beam.C47_reversed",
    "Alm.Beam.C47_return"
   ],
   "note": "Over the reals."
  },
  {
   "property": "C48",
   "status": "proved",
   "theorems": [
    "Alm.C48_focus",
    "Alm.C48_telescope"
   ],
   "note": "Over the reals."
  },
  {
   "property": "C49",
   "status": "partial",
   "theorems": [
    "Alm.C49_elements",
    "Alm.C49_retrace_partial",
    "Alm.C49_abcd_refuted",
    "Alm.C49_edge_refuted"
   ],
   "note": "Elements and width for every layout that exists in both directions; rays retrace when general ABCD elements have A = D. ABCDGeneric ignores the reversal; a system with all components cut off exists in one direction only."
  },
  {
   "property": "C50",
   "status": "partial",
   "theorems": [
    "Alm.C50_CXCX_partial",
    "Alm.C50_PLCX_partial",
    "Alm.C50_PLCXMirror",
    "Alm.C50_plate_refuted",
    "Alm.C50_lensmaker_refuted"
   ],
   "note": "Spaces divide by the index once more than the interfaces allow for: a lens acts as one of thickness L/n. Refuted for every plate of index other than 1."
  },
  {
   "property": "C51",
   "status": "proved",
   "theorems": [
    "Inject.C51_edge_matrix",
    "Inject.C51_no_error",
    "Inject.C51_source_vector"
   ],
   "note": "Without floating pairs and symbolic values."
  },
  {
   "property": "C52",
   "status": "proved",
   "theorems": [
    "Inject.C52_sparsity",
    "Inject.C52_order_independent",
    "Inject.C52_terminates",
    "Inject.C52_order_refuted"
   ],
   "note": "The sets are exactly the least solution, for every pop order; the returned order number does depend on the pop order (C52_order_refuted) but nothing reads it. Virtual nodes of floating pairs are left out."
  },
  {
   "property": "C53",
   "status": "proved",
   "theorems": [
    "Inject.C53_converged"
   ],
   "note": "For a single frequency point, exact arithmetic and an exact fixed point (the code stops on a relative change); the norm nodes must be present in the solution when a factor can be driven, and the 1e-30 shift of TripletNormCoupling must not be seen by the norm function. Floating pairs, symbolic values and AC sets are not modelled."
  },
  {
   "property": "C54",
   "status": "proved",
   "theorems": [
    "Inject.C54_bonds",
    "Inject.C54_path",
    "Inject.C54_terminates",
    "Inject.C54_cycle"
   ],
   "note": "C54_path shows every port of the chain lies on a path from the source to the target; C54_cycle shows the loop would not end on a cyclic chain, which ports_post_get cannot make."
  },
  {
   "property": "C55",
   "status": "proved",
   "theorems": [
    "Circuit.C55_circuit",
    "Circuit.C55_voltage_readout",
    "Circuit.C55_current_readout",
    "Circuit.C55_current_readout_refuted"
   ],
   "note": "Solving all node equations is equivalent to the circuit laws. The readouts are computed exactly for all fluctuations; the refutation shows when the current readout differs from both currents at a port with fluctuations (it reads the waves between the two). Bonds here are the pairs given to bond_old; the completion of multiple bonds is C56."
  },
  {
   "property": "C56",
   "status": "proved",
   "theorems": [
    "Circuit.C56_solution",
    "Circuit.C56_circuit",
    "Circuit.C56_completes",
    "Circuit.C56_cycle_refuted"
   ],
   "note": "C56_circuit is the equivalence, through Kirchhoff's current law on closed sets being the existence of link currents (Circuit.flow_iff). C56_cycle_refuted records that bonds with a cycle leave the connection fields undetermined, so the assembled system is singular although the circuit is not."
  },
  {
   "property": "C57",
   "status": "proved",
   "theorems": [
    "Signal.C57_conjugate",
    "Signal.C57_gain"
   ],
   "note": "C57_gain is over the complex numbers with the exponential and the norm."
  },
  {
   "property": "C58",
   "status": "partial",
   "theorems": [
    "Signal.C58_resonance",
    "Signal.C58_integrator_refuted",
    "Signal.C58_integrator_partial"
   ],
   "note": "The integrator has the opposite sign (1/(-1j f)) of the convention used by the delays, the filters and the state space; the resonance is right."
  },
  {
   "property": "C59",
   "status": "proved",
   "theorems": [
    "Signal.C59_element",
    "Signal.C59_real",
    "Signal.C59_rational"
   ],
   "note": "Bonds are gain-1 links without test points (C54 treats those); the environment hypotheses are facts of C02/C60."
  },
  {
   "property": "C60",
   "status": "partial",
   "theorems": [
    "Keys.C60_classical",
    "Keys.C60_negation",
    "Keys.C60_extract",
    "Keys.C60_finite",
    "Keys.C60_optical",
    "Keys.C60_optical_refuted"
   ],
   "note": "Proved for classical keys and for optical keys without zero entries; false for optical keys with zero entries (witness)."
  },
  {
   "property": "C61",
   "status": "partial",
   "theorems": [
    "Signal.C61_truncated",
    "Signal.C61_partial",
    "Signal.C61_modulator_partial",
    "Signal.C61_refuted",
    "Signal.C61_modulator_refuted"
   ],
   "note": "Proved for inputs without constant component; false of the code otherwise (witnesses)."
  },
  {
   "property": "C62",
   "status": "proved",
   "theorems": [
    "Signal.C62_mean_square",
    "Signal.C62_power"
   ],
   "note": "For keys accepted by the order limit, as C60 guarantees of both k and -k."
  },
  {
   "property": "C63",
   "status": "partial",
   "theorems": [
    "Signal.C63_band",
    "Signal.C63_ok",
    "Signal.C63_symmetric",
    "Signal.C63_test_max_partial",
    "Signal.C63_test_max_refuted"
   ],
   "note": "Proved for the filters; the cutoff of state space blocks keeps all negative frequencies (witness)."
  },
  {
   "property": "C64",
   "status": "proved",
   "theorems": [
    "Optics.C64_element",
    "Optics.C64_real"
   ],
   "note": "Real data: OElem.Real; the environment facts are OEnv.Real."
  },
  {
   "property": "C65",
   "status": "proved",
   "theorems": [
    "Optics.C65_coefficient",
    "Optics.C65_power",
    "Optics.C65_real",
    "Optics.C65_magic"
   ],
   "note": ""
  },
  {
   "property": "C66",
   "status": "proved",
   "theorems": [
    "Optics.C66_phase",
    "Optics.C66_amplitude",
    "Optics.C66_both"
   ],
   "note": "The constant part of a drive has no effect: the code passes over the zero key."
  },
  {
   "property": "C67",
   "status": "partial",
   "theorems": [
    "Optics.Mirror.C67_scatter",
    "Optics.Mirror.C67_normal",
    "Optics.Mirror.C67_energy_partial",
    "Optics.Mirror.C67_normal_energy_partial",
    "Optics.Mirror.C67_vacuum_partial",
    "Optics.Mirror.C67_phase_refuted",
    "Optics.Mirror.C67_backscatter_refuted"
   ],
   "note": "Proved for phase zero and, at normal incidence, without backscatter; false otherwise (witnesses)."
  },
  {
   "property": "C68",
   "status": "partial",
   "theorems": [
    "Optics.Mirror.C68_partial",
    "Optics.Mirror.C68_no_effect",
    "Optics.Mirror.C68_refuted"
   ],
   "note": "The code uses phase_rad for the backscatter; true only when both phases agree."
  },
  {
   "property": "C69",
   "status": "partial",
   "theorems": [
    "Optics.Mirror.C69_motion",
    "Optics.Mirror.C69_refuted"
   ],
   "note": "The phase is twice the stated one (all mirrors); witness."
  },
  {
   "property": "C70",
   "status": "partial",
   "theorems": [
    "Optics.Mirror.C70_force",
    "Optics.Mirror.C70_partial",
    "Optics.Mirror.C70_refuted"
   ],
   "note": "The force uses the amplitude of the reflection and adds the back side; true for light on the front of a perfect mirror."
  },
  {
   "property": "C71",
   "status": "proved",
   "theorems": [
    "Optics.C71_delay",
    "Optics.C71_power",
    "Optics.C71_series"
   ],
   "note": ""
  },
  {
   "property": "C72",
   "status": "proved",
   "theorems": [
    "Optics.C72_power"
   ],
   "note": ""
  },
  {
   "property": "C73",
   "status": "proved",
   "theorems": [
    "Optics.C73_turn",
    "Optics.C73_return",
    "Optics.C73_power"
   ],
   "note": ""
  },
  {
   "property": "C74",
   "status": "proved",
   "theorems": [
    "Optics.Mount.C74_half",
    "Optics.Mount.C74_half_twice",
    "Optics.Mount.C74_quarter_twice",
    "Optics.Mount.C74_power"
   ],
   "note": ""
  },
  {
   "property": "C75",
   "status": "partial",
   "theorems": [
    "Optics.C75_select",
    "Optics.C75_error",
    "Optics.C75_pol_partial",
    "Optics.C75_pol_refuted",
    "Optics.C75_pol_return_refuted",
    "Optics.C75_stack_refuted"
   ],
   "note": "Proved for GenericSelector and the forward direction of PolSelector; PolSelector loses light returning at Bk_S and doubles that of Bk_P; the stack check never fails."
  },
  {
   "property": "C76",
   "status": "proved",
   "theorems": [
    "Optics.C76_next",
    "Optics.C76_power"
   ],
   "note": ""
  },
  {
   "property": "C77",
   "status": "proved",
   "theorems": [
    "Noise.C77_noise_map",
    "Noise.C77_csd",
    "Noise.C77_by_source",
    "Noise.C77_correlation",
    "Noise.C77_readout"
   ],
   "note": "C77_correlation uses the couplings returned by the graph solver."
  },
  {
   "property": "C78",
   "status": "proved",
   "theorems": [
    "Noise.C78_positive"
   ],
   "note": ""
  },
  {
   "property": "C79",
   "status": "proved",
   "theorems": [
    "Circuit.C79_reciprocity",
    "Circuit.C79_response"
   ],
   "note": "Transformers are not modelled."
  },
  {
   "property": "C80",
   "status": "proved",
   "theorems": [
    "Noise.C80_nyquist",
    "Noise.C80_nyquist_real"
   ],
   "note": "The impedance is the voltage for a unit current of a current source at the terminal. Transformers are not modelled."
  },
  {
   "property": "C81",
   "status": "proved",
   "theorems": [
    "Readout.C81_sensitivity",
    "Readout.C81_open_loop",
    "Readout.C81_loop_gain",
    "Readout.C81_plant"
   ],
   "note": "Uses the couplings returned by the graph solver."
  },
  {
   "property": "C82",
   "status": "proved",
   "theorems": [
    "Readout.C82_rotated",
    "Readout.C82_sensitivity",
    "Readout.C82_turn",
    "Readout.C82_by_source"
   ],
   "note": ""
  },
  {
   "property": "C83",
   "status": "proved",
   "theorems": [
    "Readout.C83_angle",
    "Readout.C83_axes",
    "Readout.C83_conditional"
   ],
   "note": "The largest density is at the phase of the readout minus the angle of the ellipse."
  },
  {
   "property": "C84",
   "status": "partial",
   "theorems": [
    "Readout.C84_bound",
    "Readout.C84_attained",
    "Readout.C84_readout_partial",
    "Readout.C84_readout_refuted"
   ],
   "note": "optimal_readout drops the signs of the weights: it attains the optimum for weights without negative entries, and can be blind otherwise."
  },
  {
   "property": "C85",
   "status": "proved",
   "theorems": [
    "Shot.C85_response",
    "Shot.C85_only",
    "Shot.C85_first_order"
   ],
   "note": ""
  },
  {
   "property": "C86",
   "status": "proved",
   "theorems": [
    "Shot.C86_wire",
    "Shot.C86_space",
    "Shot.C86_wave_plate",
    "Shot.C86_rotator",
    "Shot.C86_circulator",
    "Shot.C86_mirror",
    "Shot.C86_normal_mirror",
    "Shot.C86_shot_noise",
    "Shot.C86_dc"
   ],
   "note": "Mirrors with a phase, and with backscatter at normal incidence, do not keep the commutators (C67_phase_refuted, C67_backscatter_refuted)."
  },
  {
   "property": "C87",
   "status": "proved",
   "theorems": [
    "Inject.C87_response"
   ],
   "note": ""
  },
  {
   "property": "C88",
   "status": "partial",
   "theorems": [
    "Inject.C88_derivative_partial",
    "Inject.C88_square_refuted",
    "Shot.C88_photodiode",
    "Shot.C88_photodiode_refuted"
   ],
   "note": "Proved for linear couplings, sources and products of two different fields (mixers, modulators). It fails for squares and for photodiodes: their multiplicative edges differentiate one factor only, so their response is half the derivative of their output."
  },
  {
   "property": "C89",
   "status": "proved",
   "theorems": [
    "Circuit.C89_element"
   ],
   "note": ""
  },
  {
   "property": "C90",
   "status": "partial",
   "theorems": [
    "Circuit.C90_lever",
    "Circuit.C90_moment_driver_refuted"
   ],
   "note": "Proved for Moment1D and XYZMomentDriver. MomentDriver never inserts its couplings: matrix_inject raises IndexError."
  },
  {
   "property": "C91",
   "status": "partial",
   "theorems": [
    "Noise.C91_string",
    "Noise.C91_stiffness",
    "Noise.C91_refuted"
   ],
   "note": "Proved: a string is a line with the delay of its cable. Refuted: its characteristic stiffness is the mobility itself without the factor 2 pi i f, so a string without losses can give away power at both ends."
  },
  {
   "property": "C92",
   "status": "partial",
   "theorems": [
    "Noise.C92_noise",
    "Noise.C92_excess",
    "Noise.C92_fluctuation_dissipation",
    "Noise.C92_loss_angle_refuted"
   ],
   "note": "Proved for circuits whose springs have no loss angle, and in general with an explicit excess. Refuted for a spring with the loss angle phi: its noise is 1 + phi^2 times the value of the theorem."
  },
  {
   "property": "C93",
   "status": "proved",
   "theorems": [
    "Fill.C93_optical",
    "Fill.C93_signal",
    "Fill.C93_linear",
    "Fill.C93_inserts",
    "Fill.C93_beats",
    "Fill.C93_sidebands",
    "Fill.C93_kinds"
   ],
   "note": "For systems where nothing drives the port BA of a photodiode; otherwise the worklist raises (C95_no_error_refuted)."
  },
  {
   "property": "C94",
   "status": "partial",
   "theorems": [
    "Fill.C94_conjugate_partial",
    "Fill.C94_shown_partial",
    "Fill.C94_setup_partial",
    "Fill.C94_harmonic_refuted"
   ],
   "note": "Proved for systems without a Harmonic2Generator and with selectors that treat LOWER and RAISE alike; refuted with a Harmonic2Generator."
  },
  {
   "property": "C95",
   "status": "partial",
   "theorems": [
    "Fill.C95_no_error",
    "Fill.C95_orders",
    "Fill.C95_terminates",
    "Fill.C95_limits",
    "Fill.C95_no_error_refuted"
   ],
   "note": "Proved for systems where nothing drives the port BA of a photodiode; otherwise an UnboundLocalError is raised."
  },
  {
   "property": "C96",
   "status": "partial",
   "theorems": [
    "Fill.C96_exact_partial",
    "Fill.C96_order_partial",
    "Fill.C96_harmonic_refuted",
    "Fill.C96_drive_refuted"
   ],
   "note": "Proved without a Harmonic2Generator and, if there are modulators or mirrors, with one carrier and polarization; refuted in both other cases."
  },
  {
   "property": "C97",
   "status": "proved",
   "theorems": [
    "Ode.C97_linearises",
    "Ode.C97_again"
   ],
   "note": "In exact arithmetic; the relative comparison which skips updates is a parameter."
  },
  {
   "property": "C98",
   "status": "proved",
   "theorems": [
    "Ode.C98_limit"
   ],
   "note": "Assumes a solution on the interval, which polynomial equations need not have."
  },
  {
   "property": "C99",
   "status": "proved",
   "theorems": [
    "Ode.C99_couples",
    "Ode.C99_composite_stops"
   ],
   "note": ""
  }
 ]
}