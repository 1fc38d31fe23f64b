tools/__pycache__/
