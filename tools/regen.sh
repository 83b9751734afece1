cd /verif/lean && (find Verif -name '*.lean' | sed 's#/#.#g; s#\.lean$##; s#^#import #' | sort) > Verif.lean
cp /tmp/tools/*.py /verif/tools/ ; python3 /tmp/tools/manifest.py
